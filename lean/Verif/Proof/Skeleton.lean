import Verif.Props.Entries
import Verif.Props.HSSBuild
import Mathlib.Algebra.Order.BigOperators.Group.Finset
import Mathlib.Algebra.Order.Group.Abs
import Mathlib.Algebra.Order.AbsoluteValue.Basic

set_option linter.unusedSectionVars false

/-!
# Bases whose rows at skeleton points are unit vectors
-/

namespace H2Pack.MV
open H2Pack.Part (Arr kids ClusterTree Pairs Holds)
open Finset

/-- Candidates `cand v i` (`i < nc v`) and skeleton points `jp v k` (`k < jn v`) of the nodes that have a basis. -/
structure HasSkel {K : Type} [CommRing K] (J : JIT K) (cand : Nat → Nat → Nat) (nc : Nat → Nat) (jp : Nat → Nat → Nat) : Prop where
  coord : ∀ v < J.R.arr.nNode, J.R.minAdm ≤ J.R.arr.level v → ∀ d < J.xdim, ∀ k < J.jn v, J.jc v (d * J.jn v + k) = J.coord (d * J.R.nPoint + jp v k)
  cluster : ∀ v < J.R.arr.nNode, J.R.minAdm ≤ J.R.arr.level v → ∀ k < J.jn v, J.R.arr.ptS v ≤ jp v k ∧ jp v k ≤ J.R.arr.ptE v
  rank : ∀ v < J.R.arr.nNode, J.R.minAdm ≤ J.R.arr.level v → (J.R.U v).ncol = J.jn v * J.R.kdim
  chosen : ∀ v < J.R.arr.nNode, J.R.minAdm ≤ J.R.arr.level v → ∀ k < J.jn v, ∃ i < nc v, cand v i = jp v k
  unit : ∀ v < J.R.arr.nNode, J.R.minAdm ≤ J.R.arr.level v → ∀ i < nc v, ∀ k < J.jn v, cand v i = jp v k →
    ∀ a < J.R.kdim, ∀ t < (J.R.U v).ncol, (J.R.U v).e (i * J.R.kdim + a) t = if t = k * J.R.kdim + a then 1 else 0
  candLeaf : ∀ v < J.R.arr.nNode, J.R.minAdm ≤ J.R.arr.level v → J.R.arr.nChild v = 0 → nc v = J.npt v ∧ ∀ i < J.npt v, cand v i = J.R.arr.ptS v + i
  candInner : ∀ v < J.R.arr.nNode, J.R.minAdm ≤ J.R.arr.level v → J.R.arr.nChild v ≠ 0 → ∀ j < J.R.arr.nChild v, ∀ k < J.jn (kid J.R v j),
    ∃ i < nc v, off J.R v j + k * J.R.kdim = i * J.R.kdim ∧ cand v i = jp (kid J.R v j) k
  candSurj : ∀ v < J.R.arr.nNode, J.R.minAdm ≤ J.R.arr.level v → J.R.arr.nChild v ≠ 0 → ∀ i < nc v,
    ∃ j < J.R.arr.nChild v, ∃ k < J.jn (kid J.R v j), off J.R v j + k * J.R.kdim = i * J.R.kdim ∧ cand v i = jp (kid J.R v j) k

/-- Coordinates of point `p`. -/
def JIT.pt {K : Type} [CommRing K] (J : JIT K) (p : Nat) : Nat → K := point J.xdim J.coord J.R.nPoint p

section
variable {K : Type} [CommRing K] {J : JIT K} {cand : Nat → Nat → Nat} {nc : Nat → Nat} {jp : Nat → Nat → Nat} {W : Nat → Nat → Nat → K}

theorem row_lt' {n kd i a : Nat} (hi : i < n) (ha : a < kd) : i * kd + a < n * kd := by
  have := Nat.mul_le_mul_right kd (show i + 1 ≤ n by omega)
  rw [Nat.add_mul] at this; omega

theorem leaf_row {R : Rep K} {v i a : Nat} (hi : i ≤ R.arr.ptE v - R.arr.ptS v) (hle : R.arr.ptS v ≤ R.arr.ptE v) (ha : a < R.kdim) :
    (R.rowS v ≤ (R.arr.ptS v + i) * R.kdim + a ∧ (R.arr.ptS v + i) * R.kdim + a < R.rowE v) ∧ (R.arr.ptS v + i) * R.kdim + a - R.rowS v = i * R.kdim + a := by
  refine ⟨row_in ha |>.2 (by omega), ?_⟩
  unfold Rep.rowS
  rw [Nat.add_mul, Nat.mul_comm R.kdim]
  omega

/-- Rows of the nested basis at skeleton points. -/
theorem unit_row (h : WF J.aot) (hs : HasSkel J cand nc jp) (hW : Nested J.aot W) : ∀ v < J.R.arr.nNode, J.R.minAdm ≤ J.R.arr.level v →
    ∀ k < J.jn v, ∀ a < J.R.kdim, ∀ t < (J.R.U v).ncol, W v (jp v k * J.R.kdim + a) t = if t = k * J.R.kdim + a then 1 else 0 := by
  intro v
  induction v using Nat.strong_induction_on with
  | _ v ih =>
    intro hv hl k hk a ha t ht
    have hcl := hs.cluster v hv hl k hk
    have hle := h.tree.clusterLe v hv
    obtain ⟨i, hi, hci⟩ := hs.chosen v hv hl k hk
    have hun := hs.unit v hv hl i hi k hk hci a ha t ht
    by_cases h0 : J.R.arr.nChild v = 0
    · obtain ⟨hn, hcl2⟩ := hs.candLeaf v hv hl h0
      rw [hn] at hi
      have hi' : i ≤ J.R.arr.ptE v - J.R.arr.ptS v := by unfold JIT.npt at hi; omega
      rw [hW.leaf v hv hl h0 _ t ht]
      have e := leaf_row (R := J.aot) (v := v) (i := i) (a := a) hi' hle ha
      rw [← hci, hcl2 i hi]
      refine (if_pos e.1).trans ?_
      rw [show (J.R.arr.ptS v + i) * J.R.kdim + a - J.aot.rowS v = i * J.R.kdim + a from e.2]
      exact hun
    · obtain ⟨j, hj, k', hk', hoff, hce⟩ := hs.candSurj v hv hl h0 i hi
      have hp : jp v k = jp (kid J.R v j) k' := by rw [← hci, hce]
      refine (hW.inner v hv hl h0 _ t ht).trans ?_
      have hmem : ∀ j < J.R.arr.nChild v, kid J.R v j ∈ kids J.R.arr v := fun j hj => kid_mem (R := J.R) hj
      have hfact : ∀ j < J.R.arr.nChild v, kid J.R v j < v ∧ kid J.R v j < J.R.arr.nNode ∧ J.R.minAdm ≤ J.R.arr.level (kid J.R v j) := by
        intro j hj
        have h1 := h.tree.childLt v hv _ (hmem j hj)
        have h2 := h.tree.childLevel v hv _ (hmem j hj)
        have e1 : J.aot.arr = J.R.arr := rfl
        rw [e1] at h2
        exact ⟨h1, by omega, by omega⟩
      have hpw := h.tree.kids_pairwise hv h0
      have hcl' := hs.cluster _ (hfact j hj).2.1 (hfact j hj).2.2 k' hk'
      rw [sum_eq_single j]
      · have hr := hs.rank _ (hfact j hj).2.1 (hfact j hj).2.2
        have hlt : k' * J.R.kdim + a < (J.R.U (kid J.R v j)).ncol := by rw [hr]; exact row_lt' hk' ha
        refine (sum_eq_single (k' * J.R.kdim + a) ?_ ?_).trans ?_
        · intro d hd hne
          have hd' : d < (J.R.U (kid J.R v j)).ncol := mem_range.1 hd
          have := ih _ (hfact j hj).1 (hfact j hj).2.1 (hfact j hj).2.2 k' hk' a ha d hd'
          rw [if_neg hne] at this
          rw [hp]
          show W (kid J.R v j) _ _ * _ = 0
          rw [this, zero_mul]
        · intro hn
          exact absurd (mem_range.2 hlt) hn
        · have := ih _ (hfact j hj).1 (hfact j hj).2.1 (hfact j hj).2.2 k' hk' a ha _ hlt
          rw [if_pos rfl] at this
          rw [hp]
          show W (kid J.R v j) _ _ * (J.R.U v).e (off J.R v j + (k' * J.R.kdim + a)) t = _
          rw [this, one_mul, ← Nat.add_assoc, hoff]
          exact hun
      · intro j' hj' hne
        have hj'' : j' < J.R.arr.nChild v := mem_range.1 hj'
        apply sum_eq_zero
        intro d hd
        have hz := nested_zero h hW (kid J.R v j') (hfact j' hj'').2.1 (hfact j' hj'').2.2 (jp v k * J.R.kdim + a) (fun hcon => by
          have hin := (row_in (R := J.aot) ha).1 hcon
          have hin1 : J.R.arr.ptS (kid J.R v j') ≤ jp v k ∧ jp v k ≤ J.R.arr.ptE (kid J.R v j') := hin
          rw [hp] at hin1
          have hlen : (kids J.R.arr v).length = J.R.arr.nChild v := by simp [H2Pack.Part.kids]
          rw [List.pairwise_iff_getElem] at hpw
          have hg : ∀ x (hx : x < J.R.arr.nChild v), kid J.R v x = (kids J.R.arr v)[x]'(by rw [hlen]; exact hx) := by
            intro x hx
            unfold kid
            simp [List.getD, hlen, hx]
          rw [hg j' hj''] at hin1
          rw [hg j hj] at hin1 hcl'
          rcases Nat.lt_or_gt_of_ne hne with hlt | hgt
          · have hh := hpw j' j (by rw [show (kids J.aot.arr v).length = J.R.arr.nChild v from hlen]; exact hj'') (by rw [show (kids J.aot.arr v).length = J.R.arr.nChild v from hlen]; exact hj) hlt
            have hh' : J.R.arr.ptE ((kids J.R.arr v)[j']'(by rw [hlen]; exact hj'')) < J.R.arr.ptS ((kids J.R.arr v)[j]'(by rw [hlen]; exact hj)) := hh
            omega
          · have hh := hpw j j' (by rw [show (kids J.aot.arr v).length = J.R.arr.nChild v from hlen]; exact hj) (by rw [show (kids J.aot.arr v).length = J.R.arr.nChild v from hlen]; exact hj'') hgt
            have hh' : J.R.arr.ptE ((kids J.R.arr v)[j]'(by rw [hlen]; exact hj)) < J.R.arr.ptS ((kids J.R.arr v)[j']'(by rw [hlen]; exact hj'')) := hh
            omega) d (mem_range.1 hd)
        show W (kid J.R v j') _ _ * _ = 0
        rw [hz, zero_mul]
      · intro hn
        exact absurd (mem_range.2 hj) hn

/-- Points on the side of `v` in the pair `v`, `w`. -/
def sideP (J : JIT K) (jp : Nat → Nat → Nat) (v w i : Nat) : Nat := if J.R.arr.level w ≤ J.R.arr.level v then jp v i else J.R.arr.ptS v + i

/-- Number of points on the side of `v`. -/
def sideN (J : JIT K) (v w : Nat) : Nat := if J.R.arr.level w ≤ J.R.arr.level v then J.jn v else J.npt v

theorem sidePts_n (J : JIT K) (v w : Nat) : (J.sidePts v w).2.2 = sideN J v w := by
  unfold JIT.sidePts sideN JIT.jPts JIT.cPts
  split <;> rfl

theorem sidePts_pt (hs : HasSkel J cand nc jp) {v w : Nat} (hv : v < J.R.arr.nNode) (hl : J.R.minAdm ≤ max (J.R.arr.level v) (J.R.arr.level w)) {i : Nat} (hi : i < sideN J v w) :
    point J.xdim (J.sidePts v w).1 (J.sidePts v w).2.1 i = J.pt (sideP J jp v w i) := by
  unfold JIT.sidePts sideP JIT.pt
  unfold sideN at hi
  by_cases h : J.R.arr.level w ≤ J.R.arr.level v
  · rw [if_pos h] at hi ⊢
    rw [if_pos h]
    funext d
    unfold point JIT.jPts
    dsimp only
    by_cases hd : d < J.xdim
    · rw [if_pos hd, if_pos hd, hs.coord v hv (by omega) d hd i hi]
    · rw [if_neg hd, if_neg hd]
  · rw [if_neg h] at hi ⊢
    rw [if_neg h]
    funext d
    unfold point JIT.cPts
    dsimp only
    by_cases hd : d < J.xdim
    · rw [if_pos hd, if_pos hd]
      congr 1; omega
    · rw [if_neg hd, if_neg hd]

theorem B_entry (h : WF J.aot) (hs : HasSkel J cand nc jp) {k : Nat} (hk : k < J.R.adm.length) {c d a b : Nat}
    (hc : c < sideN J J.R.adm[k].1 J.R.adm[k].2) (hd : d < sideN J J.R.adm[k].2 J.R.adm[k].1) (ha : a < J.R.kdim) (hb : b < J.R.kdim) :
    (J.aot.B k).e (c * J.R.kdim + a) (d * J.R.kdim + b) =
      J.kern (J.pt (sideP J jp J.R.adm[k].1 J.R.adm[k].2 c)) (J.pt (sideP J jp J.R.adm[k].2 J.R.adm[k].1 d)) a b := by
  have hg : J.R.adm.getD k (0, 0) = J.R.adm[k] := by simp [List.getD, hk]
  have hn : J.R.adm[k].1 < J.R.arr.nNode ∧ J.R.adm[k].2 < J.R.arr.nNode := h.admNode _ (List.getElem_mem (l := J.aot.adm) hk)
  have hl : J.R.minAdm ≤ max (J.R.arr.level J.R.adm[k].1) (J.R.arr.level J.R.adm[k].2) := h.admLevel _ (List.getElem_mem (l := J.aot.adm) hk)
  show J.kern _ _ _ _ = _
  rw [(div_mod_row ha).1, (div_mod_row ha).2, (div_mod_row hb).1, (div_mod_row hb).2, hg]
  rw [sidePts_pt hs hn.1 hl hc, sidePts_pt hs hn.2 (by rw [max_comm]; exact hl) hd]

/-- The low rank block of a pair: sums over points and components. -/
theorem admEntry_points (h : WF J.aot) (hs : HasSkel J cand nc jp) (W : Nat → Nat → Nat → K) {k : Nat} (hk : k < J.R.adm.length) (r q : Nat) :
    admEntry J.aot W k r q = ∑ c ∈ range (sideN J J.R.adm[k].1 J.R.adm[k].2), ∑ a ∈ range J.R.kdim, ∑ d ∈ range (sideN J J.R.adm[k].2 J.R.adm[k].1), ∑ b ∈ range J.R.kdim,
      side J.aot W J.R.adm[k].1 J.R.adm[k].2 r (c * J.R.kdim + a) *
        J.kern (J.pt (sideP J jp J.R.adm[k].1 J.R.adm[k].2 c)) (J.pt (sideP J jp J.R.adm[k].2 J.R.adm[k].1 d)) a b *
        side J.aot W J.R.adm[k].2 J.R.adm[k].1 q (d * J.R.kdim + b) := by
  have hg : J.R.adm.getD k (0, 0) = J.R.adm[k] := by simp [List.getD, hk]
  have hr : (J.aot.B k).nrow = sideN J J.R.adm[k].1 J.R.adm[k].2 * J.R.kdim := by
    show (J.sidePts _ _).2.2 * J.R.kdim = _
    rw [sidePts_n, hg]
  have hc : (J.aot.B k).ncol = sideN J J.R.adm[k].2 J.R.adm[k].1 * J.R.kdim := by
    show (J.sidePts _ _).2.2 * J.R.kdim = _
    rw [sidePts_n, hg]
  unfold admEntry
  rw [hr, hc, show J.aot.adm.getD k (0, 0) = J.R.adm[k] from hg, sum_rows]
  apply sum_congr rfl; intro c hc
  apply sum_congr rfl; intro a ha
  rw [sum_rows]
  apply sum_congr rfl; intro d hd
  apply sum_congr rfl; intro b hb
  rw [B_entry h hs hk (mem_range.1 hc) (mem_range.1 hd) (mem_range.1 ha) (mem_range.1 hb)]

/-- The factor on one side of a pair at the points of that side is the identity. -/
theorem side_unit (h : WF J.aot) (hs : HasSkel J cand nc jp) (hW : Nested J.aot W) {v w : Nat} (hv : v < J.R.arr.nNode)
    (hl : J.R.minAdm ≤ max (J.R.arr.level v) (J.R.arr.level w)) {i i' a a' : Nat} (hi : i < sideN J v w) (hi' : i' < sideN J v w) (ha : a < J.R.kdim) (ha' : a' < J.R.kdim) :
    side J.aot W v w (sideP J jp v w i * J.R.kdim + a) (i' * J.R.kdim + a') = if i' = i ∧ a' = a then 1 else 0 := by
  unfold side
  have e1 : J.aot.arr = J.R.arr := rfl
  rw [e1]
  unfold sideN at hi hi'
  unfold sideP
  have hiff : ∀ {x : K} , (if i' * J.R.kdim + a' = i * J.R.kdim + a then x else 0) = if i' = i ∧ a' = a then x else 0 := by
    intro x
    by_cases he : i' = i ∧ a' = a
    · rw [if_pos he, if_pos (by rw [he.1, he.2])]
    · rw [if_neg he, if_neg (fun hc => he (mul_add_inj ha' ha hc))]
  by_cases hlv : J.R.arr.level w ≤ J.R.arr.level v
  · rw [if_pos hlv] at hi hi'
    rw [if_pos hlv, if_pos hlv, unit_row h hs hW v hv (by omega) i hi a ha _ (by rw [hs.rank v hv (by omega)]; exact row_lt' hi' ha')]
    exact hiff
  · rw [if_neg hlv, if_neg hlv]
    have : (J.R.arr.ptS v + i) * J.R.kdim + a = J.aot.rowS v + (i' * J.R.kdim + a') ↔ i' * J.R.kdim + a' = i * J.R.kdim + a := by
      show _ = J.R.kdim * J.R.arr.ptS v + _ ↔ _
      rw [Nat.add_mul, Nat.mul_comm J.R.kdim]
      omega
    simp only [this]
    exact hiff

end
end H2Pack.MV
