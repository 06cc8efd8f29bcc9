import Verif.Proof.ULV7

/-! # From the results of the loops to the elimination -/

set_option linter.unusedSectionVars false

namespace H2Pack.ULV
open Matrix
open H2Pack.MV
open H2Pack.Part (Arr kids ClusterTree Desc)

section
variable {K : Type} [Field K] {R : Rep K} {shift : K}

theorem mm_nrow (H : HSS R) {v : Nat} (hv : v < R.arr.nNode) (hl : 1 ≤ R.arr.level v) : mm R v = (R.U v).nrow := by
  unfold mm
  by_cases h0 : R.arr.nChild v = 0
  · rw [if_pos h0, H.wf.uLeaf v hv (by rw [H.min]; exact hl) h0]
  · rw [if_neg h0, H.wf.uInner v hv (by rw [H.min]; exact hl) h0]

theorem nn_le_mm (H : HSS R) {v : Nat} (hv : v < R.arr.nNode) : nn R v ≤ mm R v := by
  by_cases hl : 1 ≤ R.arr.level v
  · rw [nn_pos hl, mm_nrow H hv hl]
    exact H.tall v hv hl
  · unfold nn
    rw [if_pos (by omega)]
    omega

/-- The results for a node eliminate its positions. -/
def StepOk (R : Rep K) (shift : K) (lg : K → K) (upL downL : Nat → NodeFac K → (Nat → K) → Nat → K) (Hs : Nat → NodeH K) (v : Nat) : Prop :=
  ∃ (tU tD : Mat K) (g h : Matrix (Ix (nn R v) (mm R v - nn R v)) (Ix (nn R v) (mm R v - nn R v)) K) (δ : K),
    Asm R shift Hs v tU tD ∧ IdxOk R Hs v (Hs v).fac.idx ∧
    NodeOk (nn R v) (mm R v - nn R v) tD.e (Hs v).dm.e g h (upL v (Hs v).fac) (downL v (Hs v).fac) ∧
    (1 ≤ R.arr.level v → BasisOk (nn R v) (mm R v - nn R v) tU.e (Hs v).um.e g h) ∧
    g.det * h.det * δ = 1 ∧ (LogLike lg → (Hs v).ld = lg δ)

/-- The local operations of the two solves. -/
def luUpL (Lp : Lapack K) (R : Rep K) (v : Nat) : NodeFac K → (Nat → K) → Nat → K := luUpLocal Lp (decide (R.arr.level v = 0))
def luDownL (Lp : Lapack K) (R : Rep K) (v : Nat) : NodeFac K → (Nat → K) → Nat → K := luDownLocal Lp (decide (R.arr.level v = 0))
def cholUpL (Lp : Lapack K) (R : Rep K) (v : Nat) : NodeFac K → (Nat → K) → Nat → K := if R.arr.level v = 0 then cholUpRootLocal else cholUpLocal Lp
def cholDownL (Lp : Lapack K) (R : Rep K) (v : Nat) : NodeFac K → (Nat → K) → Nat → K := if R.arr.level v = 0 then cholDownRootLocal else cholDownLocal Lp

theorem lu_stepOk {Lp : Lapack K} (hL : Lp.Correct) (lg : K → K) (H : HSS R) {Hs : Nat → NodeH K} {v : Nat} (hv : v < R.arr.nNode)
    (hn : NodeSpec (luStep Lp lg) (luRoot Lp lg) R shift Hs v) : StepOk R shift lg (luUpL Lp R) (luDownL Lp R) Hs v := by
  obtain ⟨tU, tD, idx, h1, h2, h3, h4⟩ := hn
  have hle := nn_le_mm H hv
  by_cases hl : 1 ≤ R.arr.level v
  · have hst : stepAt (luStep Lp lg) (luRoot Lp lg) R v tU tD = luStep Lp lg tU tD := by
      unfold stepAt; rw [if_pos (show 0 < R.arr.level v by omega)]
    rw [hst] at h3 h4
    obtain ⟨g, h, ho, hb, δ, hd, hlg⟩ := luStep_ok hL lg tU tD (n := nn R v) (d := mm R v - nn R v) (by rw [h1.ncol hl, nn_pos hl])
      (by rw [h1.nrow]; omega) h3 idx
    refine ⟨tU, tD, g, h, δ, h1, ?_, ?_, fun _ => ?_, hd, ?_⟩
    · rw [h4]; exact h2
    · rw [h4]
      unfold luUpL luDownL
      rw [show decide (R.arr.level v = 0) = false by simp; omega]
      exact ho
    · rw [h4]; exact hb
    · rw [h4]; exact hlg
  · have h0 : R.arr.level v = 0 := by omega
    have hst : stepAt (luStep Lp lg) (luRoot Lp lg) R v tU tD = luRoot Lp lg tU tD := by
      unfold stepAt; rw [if_neg (show ¬ 0 < R.arr.level v by omega)]
    rw [hst] at h3 h4
    obtain ⟨g, h, ho, δ, hd, hlg⟩ := luRoot_ok hL lg tU tD (d := mm R v) h1.nrow h3 idx
    have hn0 : nn R v = 0 := by unfold nn; rw [if_pos h0]
    unfold StepOk
    rw [hn0, Nat.sub_zero]
    refine ⟨tU, tD, g, h, δ, h1, ?_, ?_, fun h => absurd h hl, hd, ?_⟩
    · rw [h4]; exact h2
    · rw [h4]
      unfold luUpL luDownL
      rw [show decide (R.arr.level v = 0) = true by simpa using h0]
      exact ho _
    · rw [h4]; exact hlg

theorem chol_stepOk {Lp : Lapack K} (hL : Lp.Correct) (lg : K → K) (H : HSS R) {Hs : Nat → NodeH K} {v : Nat} (hv : v < R.arr.nNode)
    (hn : NodeSpec (cholStep Lp lg) (cholRoot Lp lg) R shift Hs v) (hsym : ∀ tU tD, Asm R shift Hs v tU tD → Sym (mm R v) tD.e) :
    StepOk R shift lg (cholUpL Lp R) (cholDownL Lp R) Hs v := by
  obtain ⟨tU, tD, idx, h1, h2, h3, h4⟩ := hn
  have hle := nn_le_mm H hv
  have hs := hsym tU tD h1
  by_cases hl : 1 ≤ R.arr.level v
  · have hst : stepAt (cholStep Lp lg) (cholRoot Lp lg) R v tU tD = cholStep Lp lg tU tD := by
      unfold stepAt; rw [if_pos (show 0 < R.arr.level v by omega)]
    rw [hst] at h3 h4
    obtain ⟨g, h, ho, hb, δ, hd, hlg⟩ := cholStep_ok hL lg tU tD (n := nn R v) (d := mm R v - nn R v) (by rw [h1.ncol hl, nn_pos hl])
      (by rw [h1.nrow]; omega) (by rw [show nn R v + (mm R v - nn R v) = mm R v by omega]; exact hs) h3 idx
    refine ⟨tU, tD, g, h, δ, h1, ?_, ?_, fun _ => ?_, hd, ?_⟩
    · rw [h4]; exact h2
    · rw [h4]
      unfold cholUpL cholDownL
      rw [if_neg (by omega), if_neg (by omega)]
      exact ho
    · rw [h4]; exact hb
    · rw [h4]; exact hlg
  · have h0 : R.arr.level v = 0 := by omega
    have hst : stepAt (cholStep Lp lg) (cholRoot Lp lg) R v tU tD = cholRoot Lp lg tU tD := by
      unfold stepAt; rw [if_neg (show ¬ 0 < R.arr.level v by omega)]
    rw [hst] at h3 h4
    obtain ⟨g, h, ho, δ, hd, hlg⟩ := cholRoot_ok hL lg tU tD (d := mm R v) h1.nrow hs h3 idx
    have hn0 : nn R v = 0 := by unfold nn; rw [if_pos h0]
    unfold StepOk
    rw [hn0, Nat.sub_zero]
    refine ⟨tU, tD, g, h, δ, h1, ?_, ?_, fun h => absurd h hl, hd, ?_⟩
    · rw [h4]; exact h2
    · rw [h4]
      unfold cholUpL cholDownL
      rw [if_pos h0, if_pos h0]
      exact ho _
    · rw [h4]; exact hlg

/-- What is assembled is symmetric if what the children leave is. -/
theorem asm_sym (H : HSS R) (hD : SymD R) {Hs : Nat → NodeH K} {v : Nat} (hv : v < R.arr.nNode)
    (hk : ∀ c ∈ kids R.arr v, Sym (R.U c).ncol (Hs c).dm.e) {tU tD : Mat K} (hA : Asm R shift Hs v tU tD) : Sym (mm R v) tD.e := by
  by_cases h0 : R.arr.nChild v = 0
  · obtain ⟨i, hi, rfl⟩ := leaf_surj H.wf hv h0
    have hmm : mm R (R.leaf i) = R.rowE (R.leaf i) - R.rowS (R.leaf i) := by unfold mm; rw [if_pos h0]
    intro a ha b hb
    rw [hA.leafD i hi rfl a ha b hb, hA.leafD i hi rfl b hb a ha]
    rw [hmm] at ha hb
    rw [hD i hi a ha b hb]
    congr 1
    by_cases e : a = b
    · rw [if_pos e, if_pos e.symm]
    · rw [if_neg e, if_neg (Ne.symm e)]
  · have hmm : mm R v = off R v (R.arr.nChild v) := by unfold mm; rw [if_neg h0]
    intro p hp q hq
    rw [hmm] at hp hq
    obtain ⟨k, hk', a, ha, rfl⟩ := off_find R v _ p hp
    obtain ⟨l, hl', b, hb, rfl⟩ := off_find R v _ q hq
    rw [hA.innerD k hk' l hl' a ha b hb, hA.innerD l hl' k hk' b hb a ha]
    by_cases e : k = l
    · subst e
      unfold tDval
      rw [if_pos rfl, if_pos rfl]
      exact hk _ (kid_mem hk') a ha b hb
    · exact (tDval_symm R v _ _ e a b).symm

/-- Symmetry is kept by the Cholesky factorization. -/
theorem chol_sym (Lp : Lapack K) (lg : K → K) (H : HSS R) (hD : SymD R) {Hs : Nat → NodeH K} {L : List Nat} (hL : Topo R L)
    (hn : ∀ v ∈ L, NodeSpec (cholStep Lp lg) (cholRoot Lp lg) R shift Hs v) : ∀ v ∈ L, 1 ≤ R.arr.level v → Sym (R.U v).ncol (Hs v).dm.e := by
  induction hL with
  | nil => simp
  | @snoc L v hT hv hvL hk ih =>
    have ih' := ih (fun u hu => hn u (by simp [hu]))
    intro u hu hl
    rcases List.mem_append.1 hu with hu | hu
    · exact ih' u hu hl
    · have e := List.mem_singleton.1 hu
      subst e
      obtain ⟨tU, tD, idx, h1, h2, h3, h4⟩ := hn u (by simp)
      have hst : stepAt (cholStep Lp lg) (cholRoot Lp lg) R u tU tD = cholStep Lp lg tU tD := by
        unfold stepAt; rw [if_pos (show 0 < R.arr.level u by omega)]
      rw [h4, hst]
      have := asm_sym H hD hv (fun c hc => ih' c (hk c hc) (by have := H.wf.tree.childLevel u hv c hc; omega)) h1
      rw [← h1.ncol hl]
      refine cholStep_sym Lp lg tU tD ?_ ?_
      · rw [h1.nrow]; exact this
      · rw [h1.nrow, h1.ncol hl, ← nn_pos hl]
        exact nn_le_mm H hv

/-- All nodes together. -/
theorem data_of (H : HSS R) {lg : K → K} {upL downL : Nat → NodeFac K → (Nat → K) → Nat → K} {Hs : Nat → NodeH K}
    (hs : ∀ v < R.arr.nNode, StepOk R shift lg upL downL Hs v) :
    ∃ X : Data R, X.Ok shift ∧ ∀ v < R.arr.nNode, X.Elim v ∧ (Hs v).fac.idx.length = nn R v + X.dd v ∧ (∀ k, X.ix v k = (Hs v).fac.idx.getD k 0) ∧
      (∀ (x : Nat → K) (i : Ix (nn R v) (X.dd v)), upL v (Hs v).fac x (pos i) = (X.g v *ᵥ fun j => x (pos j)) i) ∧
      (∀ (x : Nat → K) (i : Ix (nn R v) (X.dd v)), downL v (Hs v).fac x (pos i) = (X.h v *ᵥ fun j => x (pos j)) i) ∧
      ∃ δ, (X.g v).det * (X.h v).det * δ = 1 ∧ (LogLike lg → (Hs v).ld = lg δ) := by
  have hs' : ∀ v, ∃ (tU tD : Mat K) (g h : Matrix (Ix (nn R v) (mm R v - nn R v)) (Ix (nn R v) (mm R v - nn R v)) K) (δ : K), v < R.arr.nNode →
      Asm R shift Hs v tU tD ∧ IdxOk R Hs v (Hs v).fac.idx ∧
      NodeOk (nn R v) (mm R v - nn R v) tD.e (Hs v).dm.e g h (upL v (Hs v).fac) (downL v (Hs v).fac) ∧
      (1 ≤ R.arr.level v → BasisOk (nn R v) (mm R v - nn R v) tU.e (Hs v).um.e g h) ∧
      g.det * h.det * δ = 1 ∧ (LogLike lg → (Hs v).ld = lg δ) := by
    intro v
    by_cases hv : v < R.arr.nNode
    · obtain ⟨tU, tD, g, h, δ, q⟩ := hs v hv
      exact ⟨tU, tD, g, h, δ, fun _ => q⟩
    · exact ⟨⟨0, 0, fun _ _ => 0⟩, ⟨0, 0, fun _ _ => 0⟩, 0, 0, 0, fun h => absurd h hv⟩
  choose tU tD g h δ hq using hs'
  have hdd : ∀ v < R.arr.nNode, nn R v + (mm R v - nn R v) = mm R v := fun v hv => by have := nn_le_mm H hv; omega
  have hnk : ∀ v < R.arr.nNode, ∀ k < R.arr.nChild v, nn R (kid R v k) = (R.U (kid R v k)).ncol := fun v hv k hk => nn_kid H.wf hv (kid_mem hk)
  refine ⟨⟨fun v => mm R v - nn R v, fun v k => (Hs v).fac.idx.getD k 0, fun v => (tU v).e, fun v => (tD v).e, fun v => (Hs v).um.e, fun v => (Hs v).dm.e, g, h⟩, ?_, ?_⟩
  · constructor
    · intro v hv h0
      show nn R v + (mm R v - nn R v) = _
      rw [hdd v hv]; unfold mm; rw [if_pos h0]
    · intro v hv h0 k hk
      have hk : k < nn R v + (mm R v - nn R v) := hk
      rw [hdd v hv] at hk
      exact (hq v hv).2.1.leaf h0 k hk
    · intro i hi a ha b hb
      have hv := (mem_leaf H.wf hi).1
      have ha : a < nn R (R.leaf i) + (mm R (R.leaf i) - nn R (R.leaf i)) := ha
      have hb : b < nn R (R.leaf i) + (mm R (R.leaf i) - nn R (R.leaf i)) := hb
      rw [hdd _ hv] at ha hb
      exact (hq _ hv).1.leafD i hi rfl a ha b hb
    · intro v hv h0 a _ c _
      show (tU v).e a c = _
      rw [(hq v hv).1.leafU h0]
    · intro v hv h0
      show nn R v + (mm R v - nn R v) = _
      rw [hdd v hv]; unfold mm; rw [if_neg h0]
    · intro v hv k hk a ha
      rw [hnk v hv k hk] at ha
      exact (hq v hv).2.1.inner k hk a ha
    · intro v hv k hk l hl a ha b hb
      have e := (hq v hv).1.innerD k hk l hl a (by rw [← hnk v hv k hk]; exact ha) b (by rw [← hnk v hv l hl]; exact hb)
      unfold tDval at e
      rw [← hnk v hv k hk, ← hnk v hv l hl] at e
      exact e
    · intro v hv hl k hk a ha c _
      have e := (hq v hv).1.innerU hl k hk a (by rw [← hnk v hv k hk]; exact ha) c
      rw [← hnk v hv k hk] at e
      exact e
  · intro v hv
    refine ⟨⟨(hq v hv).2.2.1.elim, (hq v hv).2.2.2.1⟩, ?_, fun _ => rfl, (hq v hv).2.2.1.up, (hq v hv).2.2.1.down, δ v, (hq v hv).2.2.2.2⟩
    show _ = nn R v + (mm R v - nn R v)
    rw [hdd v hv, (hq v hv).2.1.len]

end

end H2Pack.ULV
