import Verif.Proof.SPD10
import Verif.Proof.SPD2
import Verif.Proof.SPD3

set_option linter.unusedSectionVars false

/-! # SPDHSS: one block -/

namespace H2Pack.SPD
open H2Pack.MV (Mat Rep WF kid off kid_mem Nested entry nested_zero Blk IsBlock side admEntry)
open H2Pack.ULV (InRow fsub mulTL mulR deref child kid_row_unique shifted blkMat)
open H2Pack.Part (Arr kids ClusterTree Pairs)
open Finset

section
variable {R : Rep ℝ} {A : Nat → Nat → ℝ} {W : Nat → Nat → Nat → ℝ} {nvec : Nat} {g : Gh} {st : St} {Q : Nat → Prop}
  {adm : Nat → Nat → Bool} {D : Nat × Nat → Prop}

/-- Number of vectors on the side of `a` of the block of `a`, `b`: the node is compressed unless it is on a higher level. -/
def sd (R : Rep ℝ) (g : Gh) (a b : Nat) : Nat := if R.arr.level b ≤ R.arr.level a then (g.U a).ncol else g.m R a

/-- The vectors. -/
def sL (R : Rep ℝ) (g : Gh) (a b i : Nat) : Nat → ℝ := if R.arr.level b ≤ R.arr.level a then g.L a i else g.lo R a i

/-- A matrix holds the block of `a`, `b`. -/
def Holds' (R : Rep ℝ) (A : Nat → Nat → ℝ) (g : Gh) (a b : Nat) (m : Mat ℝ) : Prop :=
  m.nrow = sd R g a b ∧ m.ncol = sd R g b a ∧ ∀ i < sd R g a b, ∀ j < sd R g b a, m.e i j = bil R.size A (sL R g a b i) (sL R g b a j)

/-- What is known when the pairs in `D` have been handled. -/
structure PairInv (R : Rep ℝ) (A : Nat → Nat → ℝ) (adm : Nat → Nat → Bool) (g : Gh) (st : St) (D : Nat × Nat → Prop) : Prop where
  sub : ∀ x, D x → Vis R.arr adm x.1 x.2
  idx : ∀ a b, st.idx a b = true ↔ Vis R.arr adm a b ∧ ¬ D (par R.arr (a, b))
  val : ∀ a b, D (a, b) → ¬ D (par R.arr (a, b)) → ∃ m, st.B a b = some m ∧ Holds' R A g a b m

/-- The pairs below a pair. -/
theorem par_iff (T : ClusterTree R.arr R.nPoint) {x : Nat × Nat} (hx : Vis R.arr adm x.1 x.2) {a b : Nat} (h : Vis R.arr adm a b) :
    par R.arr (a, b) = x ↔ adm x.1 x.2 = false ∧ ¬ (R.arr.nChild x.1 = 0 ∧ R.arr.nChild x.2 = 0) ∧ a ∈ ch R.arr x.1 ∧ b ∈ ch R.arr x.2 := by
  constructor
  · intro he
    rcases above T h with ⟨v, _, _, _, _, _, _, _, e⟩ | ⟨c, d, _, h2, h3, h4, h5, e⟩
    · rw [e] at he
      subst he
      exact absurd rfl (vis_ne T hx)
    · rw [e] at he
      subst he
      exact ⟨h2, h3, h4, h5⟩
  · rintro ⟨h1, h2, h3, h4⟩
    exact (below T hx h1 h2 h3 h4).2.2

/-- The blocks below the pair are removed, its own block is stored. -/
theorem pair_done (T : ClusterTree R.arr R.nPoint) (h : PairInv R A adm g st D) {a b : Nat} (hx : Vis R.arr adm a b) (hD : ¬ D (a, b)) (hup : ¬ D (par R.arr (a, b)))
    {m : Mat ℝ} (hm : Holds' R A g a b m) :
    ((adm a b = true ∨ (R.arr.nChild a = 0 ∧ R.arr.nChild b = 0)) → PairInv R A adm g (setB st a b m) (fun y => D y ∨ y = (a, b))) ∧
    (adm a b = false → ¬ (R.arr.nChild a = 0 ∧ R.arr.nChild b = 0) → ∃ B idx, cleanB (ch R.arr a) (ch R.arr b) (setB st a b m) = .ok { st with B := B, idx := idx } ∧
      PairInv R A adm g { st with B := B, idx := idx } (fun y => D y ∨ y = (a, b))) := by
  have hval : ∀ B' : Nat → Nat → Option (Mat ℝ), B' a b = some m → ∀ c d, (c, d) ≠ (a, b) → B' c d = st.B c d → D (c, d) → ¬ D (par R.arr (c, d)) →
      ∃ m, B' c d = some m ∧ Holds' R A g c d m := by
    intro B' _ c d _ e h1 h2
    rw [e]; exact h.val c d h1 h2
  have hset : ∀ c d, (c, d) ≠ (a, b) → (setB st a b m).B c d = st.B c d := by
    intro c d hne
    show Function.update st.B a (Function.update (st.B a) b (some m)) c d = _
    by_cases hc : c = a
    · subst hc
      have : d ≠ b := fun e => hne (by rw [e])
      rw [Function.update_self, Function.update_of_ne this]
    · rw [Function.update_of_ne hc]
  have hself : (setB st a b m).B a b = some m := by
    show Function.update st.B a (Function.update (st.B a) b (some m)) a b = _
    rw [Function.update_self, Function.update_self]
  have hsub : ∀ y : Nat × Nat, (D y ∨ y = (a, b)) → Vis R.arr adm y.1 y.2 := by
    rintro y (hy | rfl)
    · exact h.sub y hy
    · exact hx
  have hpne : par R.arr (a, b) ≠ (a, b) := by
    intro e
    have := (par_iff T (x := (a, b)) hx hx).1 e
    have h3 := below T hx this.1 this.2.1 this.2.2.1 this.2.2.2
    omega
  constructor
  · intro hleaf
    have hno : ∀ c d, Vis R.arr adm c d → par R.arr (c, d) ≠ (a, b) := by
      intro c d hv e
      have := (par_iff T (x := (a, b)) hx hv).1 e
      rcases hleaf with h1 | h1
      · rw [h1] at this; exact absurd this.1 (by simp)
      · exact this.2.1 h1
    refine ⟨hsub, ?_, ?_⟩
    · intro c d
      show st.idx c d = true ↔ _
      rw [h.idx c d]
      constructor
      · rintro ⟨h1, h2⟩
        exact ⟨h1, fun hc => hc.elim h2 (hno c d h1)⟩
      · rintro ⟨h1, h2⟩
        exact ⟨h1, fun hc => h2 (Or.inl hc)⟩
    · intro c d h1 h2
      by_cases hcd : (c, d) = (a, b)
      · obtain ⟨rfl, rfl⟩ := Prod.mk.inj hcd
        exact ⟨m, hself, hm⟩
      · exact hval _ hself c d hcd (hset c d hcd) (h1.resolve_right hcd) (fun hc => h2 (Or.inl hc))
  · intro h1 h2
    have hnd : ∀ v < R.arr.nNode, (ch R.arr v).Nodup := by
      intro v hv
      unfold ch
      split
      · simp
      · exact T.kidsNodup v hv
    have hlt := vis_lt T hx
    have hlow : ∀ c ∈ ch R.arr a, ∀ d ∈ ch R.arr b, Vis R.arr adm c d ∧ par R.arr (c, d) = (a, b) := fun c hc d hd =>
      ⟨(below T hx h1 h2 hc hd).1, (below T hx h1 h2 hc hd).2.2⟩
    obtain ⟨B, idx, e1, e2, e3⟩ := cleanB_ok (ch R.arr a) (ch R.arr b) (hnd a hlt.1) (hnd b hlt.2) (setB st a b m) (fun c hc d hd => by
      show st.idx c d = true
      rw [h.idx c d]
      obtain ⟨g1, g2⟩ := hlow c hc d hd
      exact ⟨g1, by rw [g2]; exact hD⟩)
    refine ⟨B, idx, e1, hsub, ?_, ?_⟩
    · intro c d
      show idx c d = true ↔ _
      by_cases hcd : c ∈ ch R.arr a ∧ d ∈ ch R.arr b
      · rw [e2 c d hcd]
        simp only [Bool.false_eq_true, false_iff, not_and, not_not]
        intro _
        exact Or.inr (hlow c hcd.1 d hcd.2).2
      · rw [(e3 c d hcd).1]
        show st.idx c d = true ↔ _
        rw [h.idx c d]
        constructor
        · rintro ⟨g1, g2⟩
          refine ⟨g1, fun hc => hc.elim g2 fun e => ?_⟩
          exact hcd ((par_iff T (x := (a, b)) hx g1).1 e).2.2
        · rintro ⟨g1, g2⟩
          exact ⟨g1, fun hc => g2 (Or.inl hc)⟩
    · intro c d g1 g2
      have hcd : ¬ (c ∈ ch R.arr a ∧ d ∈ ch R.arr b) := fun hc => g2 (Or.inr (hlow c hc.1 d hc.2).2)
      show ∃ m, B c d = some m ∧ _
      rw [(e3 c d hcd).2]
      by_cases he : (c, d) = (a, b)
      · obtain ⟨rfl, rfl⟩ := Prod.mk.inj he
        exact ⟨m, hself, hm⟩
      · exact hval _ hself c d he (hset c d he) (g1.resolve_right he) (fun hc => g2 (Or.inl hc))

/-! ## Sizes -/

theorem ch_leaf {v : Nat} (h : R.arr.nChild v = 0) : ch R.arr v = [v] := by unfold ch; rw [if_pos h]
theorem ch_inner {v : Nat} (h : R.arr.nChild v ≠ 0) : ch R.arr v = kids R.arr v := by unfold ch; rw [if_neg h]

/-- Number of vectors of the parts of `v`. -/
def cs (R : Rep ℝ) (g : Gh) (v c : Nat) : Nat := if R.arr.nChild v = 0 then g.m R v else (g.U c).ncol

/-- On the side of `a` the sizes and vectors of the pairs below `a`, `b` are those of the parts of `a`. -/
theorem sd_ch (T : ClusterTree R.arr R.nPoint) {a b : Nat} (hx : Vis R.arr adm a b ∨ Vis R.arr adm b a) (h2 : ¬ (R.arr.nChild a = 0 ∧ R.arr.nChild b = 0))
    {c d : Nat} (hc : c ∈ ch R.arr a) (hd : d ∈ ch R.arr b) :
    sd R g c d = cs R g a c ∧ (R.arr.nChild a = 0 → sL R g c d = g.lo R a) ∧ (R.arr.nChild a ≠ 0 → sL R g c d = g.L c) := by
  have hlv : (R.arr.level a < R.arr.level b → R.arr.nChild a = 0) ∧ (R.arr.level b < R.arr.level a → R.arr.nChild b = 0) := by
    rcases hx with h | h
    · exact ⟨(vis_level T h).1, (vis_level T h).2.1⟩
    · exact ⟨(vis_level T h).2.1, (vis_level T h).1⟩
  have hlt : a < R.arr.nNode ∧ b < R.arr.nNode := by
    rcases hx with h | h
    · exact vis_lt T h
    · exact (vis_lt T h).symm
  unfold sd cs
  by_cases ha : R.arr.nChild a = 0
  · have hb : R.arr.nChild b ≠ 0 := fun hb => h2 ⟨ha, hb⟩
    rw [ch_leaf ha, List.mem_singleton] at hc
    rw [ch_inner hb] at hd
    subst hc
    have := T.childLevel b hlt.2 d hd
    have hle : R.arr.level c ≤ R.arr.level b := by
      by_contra hcon
      exact hb (hlv.2 (by omega))
    have e1 : sL R g c d = g.lo R c := by funext i; unfold sL; rw [if_neg (by omega)]
    rw [if_neg (by omega), if_pos ha]
    exact ⟨rfl, fun _ => e1, fun hn => absurd ha hn⟩
  · rw [ch_inner ha] at hc
    have hca := T.childLevel a hlt.1 c hc
    have hle : R.arr.level d ≤ R.arr.level c := by
      by_cases hb : R.arr.nChild b = 0
      · rw [ch_leaf hb, List.mem_singleton] at hd
        subst hd
        by_contra hcon
        exact ha (hlv.1 (by omega))
      · rw [ch_inner hb] at hd
        have := T.childLevel b hlt.2 d hd
        by_contra hcon
        exact ha (hlv.1 (by omega))
    have e1 : sL R g c d = g.L c := by funext i; unfold sL; rw [if_pos hle]
    rw [if_pos hle, if_neg ha]
    exact ⟨rfl, fun hn => absurd hn ha, fun _ => e1⟩

/-- The parts of a node make up all of it. -/
theorem parts (v : Nat) : ((ch R.arr v).map (cs R g v)).sum = g.m R v ∧
    ∀ i < g.m R v, ∃ k, ∃ hk : k < (ch R.arr v).length, ∃ a < cs R g v (ch R.arr v)[k], i = pos (cs R g v) (ch R.arr v) k + a ∧
      (R.arr.nChild v = 0 → i = a) ∧ (R.arr.nChild v ≠ 0 → g.lo R v i = g.L (ch R.arr v)[k] a) := by
  by_cases h0 : R.arr.nChild v = 0
  · rw [ch_leaf h0]
    have hcs : cs R g v v = g.m R v := by unfold cs; rw [if_pos h0]
    refine ⟨by simp [hcs], fun i hi => ⟨0, by simp, i, ?_, ?_, fun _ => rfl, fun hn => absurd h0 hn⟩⟩
    · simpa [hcs] using hi
    · rw [pos_zero, Nat.zero_add]
  · rw [ch_inner h0]
    have hcs : cs R g v = fun c => (g.U c).ncol := by funext c; unfold cs; rw [if_neg h0]
    rw [hcs]
    refine ⟨by rw [sum_kids, m_inner h0]; rfl, fun i hi => ?_⟩
    obtain ⟨k, hk, b, hb, rfl⟩ := find_m h0 hi
    have hk2 : k < (kids R.arr v).length := by rw [kids_len]; exact hk
    refine ⟨k, hk2, b, ?_, ?_, fun hn => absurd hn h0, fun _ => ?_⟩
    · rw [kid_get]; exact hb
    · rw [pos_kids _ k (by omega)]; rfl
    · rw [kid_get, lo_inner hk hb]

/-- The gathered block. -/
theorem gather_ok (T : ClusterTree R.arr R.nPoint) (h : PairInv R A adm g st D) {a b : Nat} (hx : Vis R.arr adm a b) (hD : ¬ D (a, b))
    (hadm : adm a b = false) (h2 : ¬ (R.arr.nChild a = 0 ∧ R.arr.nChild b = 0)) (hlow : ∀ c ∈ ch R.arr a, ∀ d ∈ ch R.arr b, D (c, d)) (m0 : Mat ℝ) :
    ∃ e, gatherB (setB st a b m0) (ch R.arr a) (ch R.arr b) = .ok (some ⟨g.m R a, g.m R b, e⟩) ∧
      ∀ i < g.m R a, ∀ j < g.m R b, e i j = bil R.size A (g.lo R a i) (g.lo R b j) := by
  have hbel : ∀ c ∈ ch R.arr a, ∀ d ∈ ch R.arr b, Vis R.arr adm c d ∧ par R.arr (c, d) = (a, b) ∧ (c, d) ≠ (a, b) := by
    intro c hc d hd
    have := below T hx hadm h2 hc hd
    refine ⟨this.1, this.2.2, fun e => ?_⟩
    rw [e] at this
    omega
  have hv : ∀ c ∈ ch R.arr a, ∀ d ∈ ch R.arr b, ∃ m, lookB (setB st a b m0) c d = some m ∧ Holds' R A g c d m := by
    intro c hc d hd
    obtain ⟨v1, v2, v3⟩ := hbel c hc d hd
    obtain ⟨m, hm, hm2⟩ := h.val c d (hlow c hc d hd) (by rw [v2]; exact hD)
    refine ⟨m, ?_, hm2⟩
    unfold lookB
    rw [if_pos (show (setB st a b m0).idx c d = true from (h.idx c d).2 ⟨v1, by rw [v2]; exact hD⟩)]
    show Function.update st.B a (Function.update (st.B a) b (some m0)) c d = _
    by_cases hca : c = a
    · subst hca
      have : d ≠ b := fun e => v3 (by rw [e])
      rw [Function.update_self, Function.update_of_ne this, hm]
    · rw [Function.update_of_ne hca, hm]
  have : Nonempty (Mat ℝ) := ⟨m0⟩
  choose! f hf using hv
  have hne : ∀ v, ch R.arr v ≠ [] := fun v e => by
    obtain ⟨c, hc⟩ := ch_ne_nil (A := R.arr) v
    rw [e] at hc; simp at hc
  have h2' : ¬ (R.arr.nChild b = 0 ∧ R.arr.nChild a = 0) := fun hc => h2 hc.symm
  obtain ⟨e, e1, e2⟩ := gatherB_ok (setB st a b m0) (ch R.arr a) (ch R.arr b) f (cs R g a) (cs R g b) (hne a) (hne b) (fun c hc d hd => (hf c hc d hd).1)
    (fun c hc d hd => by rw [(hf c hc d hd).2.1]; exact (sd_ch T (Or.inl hx) h2 hc hd).1)
    (fun c hc d hd => by rw [(hf c hc d hd).2.2.1]; exact (sd_ch T (Or.inr hx) h2' hd hc).1)
  rw [(parts (R := R) (g := g) a).1, (parts (R := R) (g := g) b).1] at e1
  refine ⟨e, e1, fun i hi j hj => ?_⟩
  obtain ⟨k, hk, x, hx1, hi1, hi2, hi3⟩ := (parts (R := R) (g := g) a).2 i hi
  obtain ⟨l, hl, y, hy1, hj1, hj2, hj3⟩ := (parts (R := R) (g := g) b).2 j hj
  have m1 : (ch R.arr a)[k] ∈ ch R.arr a := List.getElem_mem hk
  have m2 : (ch R.arr b)[l] ∈ ch R.arr b := List.getElem_mem hl
  obtain ⟨s1, s2, s3⟩ := sd_ch (g := g) T (Or.inl hx) h2 m1 m2
  obtain ⟨t1, t2, t3⟩ := sd_ch (g := g) T (Or.inr hx) h2' m2 m1
  have hee := e2 k hk l hl x hx1 y hy1
  rw [← hi1, ← hj1] at hee
  rw [hee, (hf _ m1 _ m2).2.2.2 x (by rw [s1]; exact hx1) y (by rw [t1]; exact hy1)]
  have g1 : sL R g (ch R.arr a)[k] (ch R.arr b)[l] x = g.lo R a i := by
    by_cases h0 : R.arr.nChild a = 0
    · rw [s2 h0, hi2 h0]
    · rw [s3 h0, hi3 h0]
  have g2 : sL R g (ch R.arr b)[l] (ch R.arr a)[k] y = g.lo R b j := by
    by_cases h0 : R.arr.nChild b = 0
    · rw [t2 h0, hj2 h0]
    · rw [t3 h0, hj3 h0]
  rw [g1, g2]

end

end H2Pack.SPD
