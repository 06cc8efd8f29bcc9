import Verif.Proof.Skeleton
import Mathlib.Tactic.Linarith
import Mathlib.Tactic.Ring
import Mathlib.Tactic.Positivity

set_option linter.unusedSectionVars false

/-!
# Errors of nested interpolation
-/

namespace H2Pack.MV
open H2Pack.Part (Arr kids ClusterTree Pairs Holds Desc)
open Finset

section
variable {K : Type} [Field K] [LinearOrder K] [IsStrictOrderedRing K] {J : JIT K} {cand : Nat → Nat → Nat} {nc : Nat → Nat} {jp : Nat → Nat → Nat}
  {W : Nat → Nat → Nat → K}

/-- Values at the skeleton points of `v`. -/
def skVal (J : JIT K) (jp : Nat → Nat → Nat) (G : Nat → Nat → K) (v t : Nat) : K := G (jp v (t / J.R.kdim)) (t % J.R.kdim)

/-- Error at candidate `i` of `u` of the interpolation of `G` from the skeleton points of `u`. -/
def localErr (J : JIT K) (cand jp : Nat → Nat → Nat) (G : Nat → Nat → K) (u i a : Nat) : K :=
  G (cand u i) a - ∑ t ∈ range (J.R.U u).ncol, (J.R.U u).e (i * J.R.kdim + a) t * skVal J jp G u t

/-- Error at point `p` of the interpolation with the nested basis of `v`. -/
def nestErr (J : JIT K) (jp : Nat → Nat → Nat) (W : Nat → Nat → Nat → K) (G : Nat → Nat → K) (v p a : Nat) : K :=
  G p a - ∑ t ∈ range (J.R.U v).ncol, W v (p * J.R.kdim + a) t * skVal J jp G v t

theorem nestErr_leaf (h : WF J.aot) (hs : HasSkel J cand nc jp) (hW : Nested J.aot W) (G : Nat → Nat → K) {v : Nat} (hv : v < J.R.arr.nNode) (hl : J.R.minAdm ≤ J.R.arr.level v)
    (h0 : J.R.arr.nChild v = 0) {p a : Nat} (ha : a < J.R.kdim) (hp : J.R.arr.ptS v ≤ p ∧ p ≤ J.R.arr.ptE v) :
    p - J.R.arr.ptS v < nc v ∧ nestErr J jp W G v p a = localErr J cand jp G v (p - J.R.arr.ptS v) a := by
  obtain ⟨hn, hc⟩ := hs.candLeaf v hv hl h0
  have hi : p - J.R.arr.ptS v < J.npt v := by unfold JIT.npt; omega
  refine ⟨by rw [hn]; exact hi, ?_⟩
  unfold nestErr localErr
  rw [hc _ hi, show J.R.arr.ptS v + (p - J.R.arr.ptS v) = p by omega]
  congr 1
  apply sum_congr rfl
  intro t ht
  have e := leaf_row (R := J.aot) (v := v) (i := p - J.R.arr.ptS v) (a := a) (show p - J.R.arr.ptS v ≤ J.R.arr.ptE v - J.R.arr.ptS v by omega) (h.tree.clusterLe v hv) ha
  rw [show J.aot.arr.ptS v + (p - J.R.arr.ptS v) = p by show J.R.arr.ptS v + _ = p; omega] at e
  congr 1
  refine (hW.leaf v hv hl h0 _ t (mem_range.1 ht)).trans ((if_pos e.1).trans ?_)
  rw [show p * J.R.kdim + a - J.aot.rowS v = (p - J.R.arr.ptS v) * J.R.kdim + a from e.2]
  rfl

theorem nestErr_inner (h : WF J.aot) (hs : HasSkel J cand nc jp) (hW : Nested J.aot W) (G : Nat → Nat → K) {v : Nat} (hv : v < J.R.arr.nNode) (hl : J.R.minAdm ≤ J.R.arr.level v)
    (h0 : J.R.arr.nChild v ≠ 0) {p a : Nat} (ha : a < J.R.kdim) (hp : J.R.arr.ptS v ≤ p ∧ p ≤ J.R.arr.ptE v) :
    ∃ c ∈ kids J.R.arr v, (J.R.arr.ptS c ≤ p ∧ p ≤ J.R.arr.ptE c) ∧ ∃ i : Nat → Nat, (∀ d < (J.R.U c).ncol, i d < nc v) ∧
      nestErr J jp W G v p a = nestErr J jp W G c p a + ∑ d ∈ range (J.R.U c).ncol, W c (p * J.R.kdim + a) d * localErr J cand jp G v (i d) (d % J.R.kdim) := by
  have hkd : 0 < J.R.kdim := h.kdim
  obtain ⟨c, hc, hcp⟩ := h.tree.kid_at (v := v) (p := p) hv h0 hp.1 hp.2
  have hcp' : J.R.arr.ptS c ≤ p ∧ p ≤ J.R.arr.ptE c := hcp
  have hlen : (kids J.R.arr v).length = J.R.arr.nChild v := by simp [H2Pack.Part.kids]
  obtain ⟨j, hj, hjc⟩ := List.getElem_of_mem hc
  have hj' : j < J.R.arr.nChild v := by rw [← hlen]; exact hj
  have hkj : kid J.R v j = c := by
    unfold kid
    rw [← hjc]
    have : j < (kids J.R.arr v).length := hj
    simp [List.getD, this]
    rfl
  have hmem : ∀ j < J.R.arr.nChild v, kid J.R v j ∈ kids J.R.arr v := fun j hj => kid_mem (R := J.R) hj
  have hfact : ∀ j < J.R.arr.nChild v, kid J.R v j < v ∧ kid J.R v j < J.R.arr.nNode ∧ J.R.minAdm ≤ J.R.arr.level (kid J.R v j) := by
    intro j hj
    have h1 := h.tree.childLt v hv _ (hmem j hj)
    have h2 := h.tree.childLevel v hv _ (hmem j hj)
    have e1 : J.aot.arr = J.R.arr := rfl
    rw [e1] at h2
    exact ⟨h1, by omega, by omega⟩
  have hnd := h.tree.kidsNodup v hv
  -- other children do not contribute
  have hzero : ∀ j' < J.R.arr.nChild v, j' ≠ j → ∀ d < (J.R.U (kid J.R v j')).ncol, W (kid J.R v j') (p * J.R.kdim + a) d = 0 := by
    intro j' hj'' hne d hd
    refine nested_zero h hW _ (hfact j' hj'').2.1 (hfact j' hj'').2.2 (p * J.R.kdim + a) (fun hcon => ?_) d hd
    have hin := (row_in (R := J.aot) ha).1 hcon
    have := h.tree.kid_unique hv (hmem j' hj'') hc hin.1 hin.2 hcp.1 hcp.2
    apply hne
    have e1 : kid J.R v j' = (kids J.R.arr v)[j']'(by rw [hlen]; exact hj'') := by
      unfold kid
      simp [List.getD, hlen, hj'']
    have e2 : (kids J.R.arr v)[j']'(by rw [hlen]; exact hj'') = (kids J.R.arr v)[j]'(by rw [hlen]; exact hj') := by
      rw [← e1, this]; exact hjc.symm
    exact (List.Nodup.getElem_inj_iff hnd).1 e2
  have hex : ∀ d, ∃ i, d < (J.R.U c).ncol → i < nc v ∧ i * J.R.kdim + d % J.R.kdim = off J.R v j + d ∧ cand v i = jp c (d / J.R.kdim) := by
    intro d
    by_cases hd : d < (J.R.U c).ncol
    · have hr := hs.rank c (by rw [← hkj]; exact (hfact j hj').2.1) (by rw [← hkj]; exact (hfact j hj').2.2)
      rw [hr] at hd
      have hk : d / J.R.kdim < J.jn (kid J.R v j) := by rw [hkj]; exact Nat.div_lt_of_lt_mul (by rw [Nat.mul_comm]; exact hd)
      obtain ⟨i, hi, ho, hce⟩ := hs.candInner v hv hl h0 j hj' _ hk
      refine ⟨i, fun _ => ⟨hi, ?_, by rw [hce, hkj]⟩⟩
      have := Nat.div_add_mod d J.R.kdim
      rw [Nat.mul_comm] at this
      omega
    · exact ⟨0, fun h => absurd h hd⟩
  choose i hi using hex
  refine ⟨c, hc, hcp', i, fun d hd => (hi d hd).1, ?_⟩
  have hcol : ∑ t ∈ range (J.R.U v).ncol, W v (p * J.R.kdim + a) t * skVal J jp G v t =
      ∑ d ∈ range (J.R.U c).ncol, W c (p * J.R.kdim + a) d * ∑ t ∈ range (J.R.U v).ncol, (J.R.U v).e (off J.R v j + d) t * skVal J jp G v t := by
    have e1 : ∀ t ∈ range (J.R.U v).ncol, W v (p * J.R.kdim + a) t * skVal J jp G v t =
        ∑ d ∈ range (J.R.U c).ncol, W c (p * J.R.kdim + a) d * ((J.R.U v).e (off J.R v j + d) t * skVal J jp G v t) := by
      intro t ht
      have := (hW.inner v hv hl h0 (p * J.R.kdim + a) t (mem_range.1 ht)).trans (sum_eq_single j (fun j' hj'' hne => sum_eq_zero fun d hd => by
        have := hzero j' (mem_range.1 hj'') hne d (mem_range.1 hd)
        show W (kid J.R v j') _ _ * _ = 0
        rw [this, zero_mul]) (fun hn => absurd (mem_range.2 hj') hn))
      have this' : W v (p * J.R.kdim + a) t = ∑ d ∈ range (J.R.U (kid J.R v j)).ncol, W (kid J.R v j) (p * J.R.kdim + a) d * (J.R.U v).e (off J.R v j + d) t := this
      rw [this', hkj, sum_mul]
      apply sum_congr rfl
      intro d hd
      ring
    rw [sum_congr rfl e1, sum_comm]
    apply sum_congr rfl
    intro d hd
    rw [mul_sum]
  have hloc : ∀ d ∈ range (J.R.U c).ncol, W c (p * J.R.kdim + a) d * ∑ t ∈ range (J.R.U v).ncol, (J.R.U v).e (off J.R v j + d) t * skVal J jp G v t =
      W c (p * J.R.kdim + a) d * skVal J jp G c d - W c (p * J.R.kdim + a) d * localErr J cand jp G v (i d) (d % J.R.kdim) := by
    intro d hd
    obtain ⟨_, g2, g3⟩ := hi d (mem_range.1 hd)
    unfold localErr
    rw [g2, g3]
    have : skVal J jp G c d = G (jp c (d / J.R.kdim)) (d % J.R.kdim) := rfl
    rw [this]
    ring
  unfold nestErr
  rw [hcol, sum_congr rfl hloc, sum_sub_distrib]
  ring

/-- Nested interpolation: the error grows by at most `Λ * ε` with every level. -/
theorem nestErr_le (h : WF J.aot) (hs : HasSkel J cand nc jp) (hW : Nested J.aot W) (G : Nat → Nat → K) {ε Λ : K} (hε : 0 ≤ ε) 
    (hΛ : ∀ v < J.R.arr.nNode, J.R.minAdm ≤ J.R.arr.level v → ∀ r, ∑ t ∈ range (J.R.U v).ncol, |W v r t| ≤ Λ) :
    ∀ v < J.R.arr.nNode, J.R.minAdm ≤ J.R.arr.level v →
    (∀ u, Desc J.R.arr u v → ∀ i < nc u, ∀ a < J.R.kdim, |localErr J cand jp G u i a| ≤ ε) →
    ∀ p, J.R.arr.ptS v ≤ p → p ≤ J.R.arr.ptE v → ∀ a < J.R.kdim, |nestErr J jp W G v p a| ≤ (1 + J.R.arr.height v * Λ) * ε := by
  intro v
  induction v using Nat.strong_induction_on with
  | _ v ih =>
    intro hv hl hloc p hp1 hp2 a ha
    have hΛ0 : 0 ≤ Λ := le_trans (sum_nonneg fun _ _ => abs_nonneg _) (hΛ v hv hl 0)
    by_cases h0 : J.R.arr.nChild v = 0
    · obtain ⟨h1, h2⟩ := nestErr_leaf h hs hW G hv hl h0 ha ⟨hp1, hp2⟩
      rw [h2]
      refine le_trans (hloc v (.refl v) _ h1 a ha) ?_
      have : 0 ≤ (J.R.arr.height v : K) * Λ := mul_nonneg (Nat.cast_nonneg _) hΛ0
      nlinarith
    · obtain ⟨c, hc, hcp, i, hi, he⟩ := nestErr_inner h hs hW G hv hl h0 ha ⟨hp1, hp2⟩
      have c1 : c < v := h.tree.childLt v hv c hc
      have c2 : J.R.arr.level c = J.R.arr.level v + 1 := h.tree.childLevel v hv c hc
      have c3 : J.R.arr.height c + 1 ≤ J.R.arr.height v := (h.tree.nodeHeight v hv h0).1 c hc
      have g1 := ih c c1 (by omega) (by omega) (fun u hu => hloc u (.step hc hu)) p hcp.1 hcp.2 a ha
      have g2 : |∑ d ∈ range (J.R.U c).ncol, W c (p * J.R.kdim + a) d * localErr J cand jp G v (i d) (d % J.R.kdim)| ≤ Λ * ε := by
        refine le_trans (abs_sum_le_sum_abs _ _) ?_
        refine le_trans (sum_le_sum (g := fun d => |W c (p * J.R.kdim + a) d| * ε) fun d hd => ?_) ?_
        · rw [abs_mul]
          exact mul_le_mul_of_nonneg_left (hloc v (.refl v) _ (hi d (mem_range.1 hd)) _ (Nat.mod_lt _ h.kdim)) (abs_nonneg _)
        · rw [← sum_mul]
          exact mul_le_mul_of_nonneg_right (hΛ c (by omega) (by omega) _) hε
      rw [he]
      refine le_trans (abs_add_le _ _) (le_trans (add_le_add g1 g2) ?_)
      have : ((J.R.arr.height c : K) + 1) ≤ (J.R.arr.height v : K) := by exact_mod_cast c3
      have h2 : ((J.R.arr.height c : K) + 1) * (Λ * ε) ≤ (J.R.arr.height v : K) * (Λ * ε) := mul_le_mul_of_nonneg_right this (mul_nonneg hΛ0 hε)
      nlinarith

theorem height_le {A : Arr K} {n : Nat} (T : ClusterTree A n) {u v : Nat} (d : Desc A u v) (hv : v < A.nNode) : A.height u ≤ A.height v := by
  induction d with
  | refl => exact Nat.le_refl _
  | @step c v hc _ ih =>
    have h0 : A.nChild v ≠ 0 := by intro h; rw [H2Pack.Part.kids_nil_iff.2 h] at hc; simp at hc
    have := (T.nodeHeight v hv h0).1 c hc
    have := ih (T.kid_lt hv hc)
    omega

/-- Kernel values with component `b` of point `y`. -/
def farG (J : JIT K) (y b : Nat) : Nat → Nat → K := fun x a => J.kern (J.pt x) (J.pt y) a b

/-- Every node interpolates well on the clusters its ancestors interact with. -/
def FarOk (J : JIT K) (cand : Nat → Nat → Nat) (nc : Nat → Nat) (jp : Nat → Nat → Nat) (ε : K) : Prop :=
  ∀ v w, ((v, w) ∈ J.R.adm ∨ (w, v) ∈ J.R.adm) → J.R.arr.level w ≤ J.R.arr.level v → ∀ u, Desc J.R.arr u v →
    ∀ y, J.R.arr.ptS w ≤ y → y ≤ J.R.arr.ptE w → ∀ b < J.R.kdim, ∀ i < nc u, ∀ a < J.R.kdim, |localErr J cand jp (farG J y b) u i a| ≤ ε

/-- Error of the interpolation on the side of `v` in the pair `v`, `w`. -/
def sideErr (J : JIT K) (jp : Nat → Nat → Nat) (W : Nat → Nat → Nat → K) (G : Nat → Nat → K) (v w p a : Nat) : K :=
  G p a - ∑ c ∈ range (sideN J v w), ∑ a' ∈ range J.R.kdim, side J.aot W v w (p * J.R.kdim + a) (c * J.R.kdim + a') * G (sideP J jp v w c) a'

theorem sideErr_le (h : WF J.aot) (hs : HasSkel J cand nc jp) (hW : Nested J.aot W) (G : Nat → Nat → K) {ε Λ : K} (hε : 0 ≤ ε)
    (hΛ : ∀ v < J.R.arr.nNode, J.R.minAdm ≤ J.R.arr.level v → ∀ r, ∑ t ∈ range (J.R.U v).ncol, |W v r t| ≤ Λ) (hΛ1 : 1 ≤ Λ) {v w : Nat} (hv : v < J.R.arr.nNode)
    (hl : J.R.minAdm ≤ max (J.R.arr.level v) (J.R.arr.level w))
    (hloc : J.R.arr.level w ≤ J.R.arr.level v → ∀ u, Desc J.R.arr u v → ∀ i < nc u, ∀ a < J.R.kdim, |localErr J cand jp G u i a| ≤ ε)
    {p a : Nat} (hp : J.R.arr.ptS v ≤ p ∧ p ≤ J.R.arr.ptE v) (ha : a < J.R.kdim) :
    |sideErr J jp W G v w p a| ≤ (1 + J.R.arr.maxLevel * Λ) * ε ∧
    ∑ c ∈ range (sideN J v w), ∑ a' ∈ range J.R.kdim, |side J.aot W v w (p * J.R.kdim + a) (c * J.R.kdim + a')| ≤ Λ := by
  have hkd : 0 < J.R.kdim := h.kdim
  have hM : (J.R.arr.height v : K) ≤ (J.R.arr.maxLevel : K) := by
    have h1 := height_le h.tree (h.tree.desc_root hv) (by have := h.tree.nonempty; show J.aot.arr.nNode - 1 < J.aot.arr.nNode; omega)
    have h2 := h.tree.maxLevel
    have : J.R.arr.height v ≤ J.R.arr.maxLevel := by rw [show J.R.arr.maxLevel = _ from h2]; exact h1
    exact_mod_cast this
  have hMn : (0 : K) ≤ (J.R.arr.maxLevel : K) := Nat.cast_nonneg _
  by_cases hlv : J.R.arr.level w ≤ J.R.arr.level v
  · have hl' : J.R.minAdm ≤ J.R.arr.level v := by omega
    have hr := hs.rank v hv hl'
    have hn : sideN J v w = J.jn v := by unfold sideN; rw [if_pos hlv]
    have hP : ∀ c, sideP J jp v w c = jp v c := fun c => by unfold sideP; rw [if_pos hlv]
    have hsd : ∀ r t, side J.aot W v w r t = W v r t := fun r t => by
      unfold side
      have e1 : J.aot.arr = J.R.arr := rfl
      rw [e1, if_pos hlv]
    have he : sideErr J jp W G v w p a = nestErr J jp W G v p a := by
      unfold sideErr nestErr
      rw [hr, sum_rows, hn]
      congr 1
      apply sum_congr rfl; intro c _
      apply sum_congr rfl; intro a' ha'
      rw [hsd, hP]
      unfold skVal
      rw [(div_mod_row (mem_range.1 ha')).1, (div_mod_row (mem_range.1 ha')).2]
    constructor
    · rw [he]
      refine le_trans (nestErr_le h hs hW G hε hΛ v hv hl' (hloc hlv) p hp.1 hp.2 a ha) ?_
      apply mul_le_mul_of_nonneg_right _ hε
      nlinarith
    · have := hΛ v hv hl' (p * J.R.kdim + a)
      rw [hr, sum_rows] at this
      rw [hn]
      simpa only [hsd] using this
  · have hn : sideN J v w = J.npt v := by unfold sideN; rw [if_neg hlv]
    have hP : ∀ c, sideP J jp v w c = J.R.arr.ptS v + c := fun c => by unfold sideP; rw [if_neg hlv]
    have hi : p - J.R.arr.ptS v < sideN J v w := by rw [hn]; unfold JIT.npt; omega
    have hPi : sideP J jp v w (p - J.R.arr.ptS v) = p := by rw [hP]; omega
    have hsd : ∀ c < sideN J v w, ∀ a' < J.R.kdim, side J.aot W v w (p * J.R.kdim + a) (c * J.R.kdim + a') = if c = p - J.R.arr.ptS v ∧ a' = a then 1 else 0 := by
      intro c hc a' ha'
      have := side_unit h hs hW hv hl hi hc ha ha'
      rw [hPi] at this
      exact this
    have hone : ∀ (F : Nat → Nat → K → K), (∀ c a', F c a' 0 = 0) → ∑ c ∈ range (sideN J v w), ∑ a' ∈ range J.R.kdim, F c a' (side J.aot W v w (p * J.R.kdim + a) (c * J.R.kdim + a')) =
        F (p - J.R.arr.ptS v) a 1 := by
      intro F hF
      rw [sum_eq_single (p - J.R.arr.ptS v)]
      · rw [sum_eq_single a]
        · rw [hsd _ hi _ ha, if_pos ⟨rfl, rfl⟩]
        · intro a' ha' hne
          rw [hsd _ hi _ (mem_range.1 ha'), if_neg (fun hc => hne hc.2), hF]
        · intro hc; exact absurd (mem_range.2 ha) hc
      · intro c hc hne
        apply sum_eq_zero; intro a' ha'
        rw [hsd _ (mem_range.1 hc) _ (mem_range.1 ha'), if_neg (fun hc => hne hc.1), hF]
      · intro hc; exact absurd (mem_range.2 hi) hc
    constructor
    · unfold sideErr
      rw [hone (fun c a' x => x * G (sideP J jp v w c) a') (fun _ _ => by ring), hPi, one_mul, sub_self, abs_zero]
      have : 0 ≤ Λ := by linarith
      positivity
    · rw [hone (fun _ _ x => |x|) (fun _ _ => abs_zero), abs_one]
      exact hΛ1

/-- Points on a side belong to the cluster. -/
theorem sideP_in (hs : HasSkel J cand nc jp) {v w : Nat} (hv : v < J.R.arr.nNode) (hle : J.R.arr.ptS v ≤ J.R.arr.ptE v)
    (hl : J.R.minAdm ≤ max (J.R.arr.level v) (J.R.arr.level w)) {i : Nat} (hi : i < sideN J v w) :
    J.R.arr.ptS v ≤ sideP J jp v w i ∧ sideP J jp v w i ≤ J.R.arr.ptE v := by
  unfold sideN at hi
  unfold sideP
  by_cases h : J.R.arr.level w ≤ J.R.arr.level v
  · rw [if_pos h] at hi ⊢
    exact hs.cluster v hv (by omega) i hi
  · rw [if_neg h] at hi ⊢
    unfold JIT.npt at hi
    omega

/-- Error of the block of a pair. -/
theorem pair_err (h : WF J.aot) (hs : HasSkel J cand nc jp) (hW : Nested J.aot W) (sym : ∀ s t a b, J.kern s t a b = J.kern t s b a) {ε Λ : K} (hε : 0 ≤ ε)
    (hΛ : ∀ v < J.R.arr.nNode, J.R.minAdm ≤ J.R.arr.level v → ∀ r, ∑ t ∈ range (J.R.U v).ncol, |W v r t| ≤ Λ) (hΛ1 : 1 ≤ Λ) (hfar : FarOk J cand nc jp ε)
    {k : Nat} (hk : k < J.R.adm.length) {p q a b : Nat} (hh : Holds J.R.arr p q J.R.adm[k]) (ha : a < J.R.kdim) (hb : b < J.R.kdim) :
    |J.kern (J.pt p) (J.pt q) a b - admEntry J.aot W k (p * J.R.kdim + a) (q * J.R.kdim + b)| ≤ (1 + Λ) * ((1 + J.R.arr.maxLevel * Λ) * ε) := by
  have hn : J.R.adm[k].1 < J.R.arr.nNode ∧ J.R.adm[k].2 < J.R.arr.nNode := h.admNode _ (List.getElem_mem (l := J.aot.adm) hk)
  have hl : J.R.minAdm ≤ max (J.R.arr.level J.R.adm[k].1) (J.R.arr.level J.R.adm[k].2) := h.admLevel _ (List.getElem_mem (l := J.aot.adm) hk)
  have hm : (J.R.adm[k].1, J.R.adm[k].2) ∈ J.R.adm := List.getElem_mem hk
  rw [admEntry_points h hs W hk]
  obtain ⟨⟨p1, p2⟩, q1, q2⟩ : (J.R.arr.ptS J.R.adm[k].1 ≤ p ∧ p ≤ J.R.arr.ptE J.R.adm[k].1) ∧ (J.R.arr.ptS J.R.adm[k].2 ≤ q ∧ q ≤ J.R.arr.ptE J.R.adm[k].2) := by
    unfold Holds at hh
    omega
  clear hh
  generalize J.R.adm[k].1 = v at *
  generalize J.R.adm[k].2 = w at *
  have hl' : J.R.minAdm ≤ max (J.R.arr.level w) (J.R.arr.level v) := by rw [max_comm]; exact hl
  set δ : K := (1 + J.R.arr.maxLevel * Λ) * ε with hδ
  have hδ0 : 0 ≤ δ := by
    have : 0 ≤ Λ := by linarith
    rw [hδ]; positivity
  obtain ⟨e1, e2⟩ := sideErr_le h hs hW (farG J q b) hε hΛ hΛ1 hn.1 hl (fun hlv u hu i hi a ha => hfar v w (Or.inl hm) hlv u hu q q1 q2 b hb i hi a ha) ⟨p1, p2⟩ ha
  have e3 : ∀ c < sideN J v w, ∀ a' < J.R.kdim, |sideErr J jp W (farG J (sideP J jp v w c) a') w v q b| ≤ δ := by
    intro c hc a' ha'
    obtain ⟨c1, c2⟩ := sideP_in hs hn.1 (h.tree.clusterLe v hn.1) hl hc
    exact (sideErr_le h hs hW (farG J (sideP J jp v w c) a') hε hΛ hΛ1 hn.2 hl' (fun hlv u hu i hi a ha => hfar w v (Or.inr hm) hlv u hu _ c1 c2 a' ha' i hi a ha) ⟨q1, q2⟩ hb).1
  have key : J.kern (J.pt p) (J.pt q) a b - ∑ c ∈ range (sideN J v w), ∑ a' ∈ range J.R.kdim, ∑ d ∈ range (sideN J w v), ∑ b' ∈ range J.R.kdim,
      side J.aot W v w (p * J.R.kdim + a) (c * J.R.kdim + a') * J.kern (J.pt (sideP J jp v w c)) (J.pt (sideP J jp w v d)) a' b' * side J.aot W w v (q * J.R.kdim + b) (d * J.R.kdim + b') =
      sideErr J jp W (farG J q b) v w p a +
      ∑ c ∈ range (sideN J v w), ∑ a' ∈ range J.R.kdim, side J.aot W v w (p * J.R.kdim + a) (c * J.R.kdim + a') * sideErr J jp W (farG J (sideP J jp v w c) a') w v q b := by
    have e : ∀ c ∈ range (sideN J v w), ∀ a' ∈ range J.R.kdim, side J.aot W v w (p * J.R.kdim + a) (c * J.R.kdim + a') * sideErr J jp W (farG J (sideP J jp v w c) a') w v q b =
        side J.aot W v w (p * J.R.kdim + a) (c * J.R.kdim + a') * farG J q b (sideP J jp v w c) a' -
        ∑ d ∈ range (sideN J w v), ∑ b' ∈ range J.R.kdim, side J.aot W v w (p * J.R.kdim + a) (c * J.R.kdim + a') *
          J.kern (J.pt (sideP J jp v w c)) (J.pt (sideP J jp w v d)) a' b' * side J.aot W w v (q * J.R.kdim + b) (d * J.R.kdim + b') := by
      intro c _ a' _
      unfold sideErr
      rw [mul_sub, mul_sum]
      have g1 : farG J (sideP J jp v w c) a' q b = farG J q b (sideP J jp v w c) a' := sym _ _ _ _
      rw [g1]
      congr 1
      apply sum_congr rfl; intro d _
      rw [mul_sum]
      apply sum_congr rfl; intro b' _
      have g2 : farG J (sideP J jp v w c) a' (sideP J jp w v d) b' = J.kern (J.pt (sideP J jp v w c)) (J.pt (sideP J jp w v d)) a' b' := sym _ _ _ _
      rw [g2]
      ring
    rw [sum_congr rfl (fun c hc => sum_congr rfl (fun a' ha' => e c hc a' ha'))]
    simp only [sum_sub_distrib]
    unfold sideErr
    have g3 : farG J q b p a = J.kern (J.pt p) (J.pt q) a b := rfl
    rw [g3]
    ring
  rw [key]
  refine le_trans (abs_add_le _ _) ?_
  have e4 : |∑ c ∈ range (sideN J v w), ∑ a' ∈ range J.R.kdim, side J.aot W v w (p * J.R.kdim + a) (c * J.R.kdim + a') * sideErr J jp W (farG J (sideP J jp v w c) a') w v q b| ≤ Λ * δ := by
    refine le_trans (abs_sum_le_sum_abs _ _) ?_
    refine le_trans (sum_le_sum fun c hc => le_trans (abs_sum_le_sum_abs _ _) (sum_le_sum (g := fun a' => |side J.aot W v w (p * J.R.kdim + a) (c * J.R.kdim + a')| * δ) fun a' ha' => ?_)) ?_
    · rw [abs_mul]
      exact mul_le_mul_of_nonneg_left (e3 c (mem_range.1 hc) a' (mem_range.1 ha')) (abs_nonneg _)
    · simp only [← sum_mul]
      exact mul_le_mul_of_nonneg_right e2 hδ0
  nlinarith [e1, e4]

end
end H2Pack.MV
