import Verif.Proof.SPD12

set_option linter.unusedSectionVars false

/-! # SPDHSS: one block is computed -/

namespace H2Pack.SPD
open H2Pack.MV (Mat Rep WF kid off kid_mem Nested entry nested_zero Blk IsBlock side admEntry)
open H2Pack.ULV (InRow fsub mulTL mulR deref child kid_row_unique shifted blkMat leaf_surj)
open H2Pack.Part (Arr kids ClusterTree Pairs)
open Finset

section
variable {R : Rep ℝ} {W : Nat → Nat → Nat → ℝ} {nvec : Nat} {Ty : Nat → Nat → Nat → ℝ} {g : Gh} {st : St} {Q : Nat → Prop} {P : Params}
  {adm : Nat → Nat → Bool} {D : Nat × Nat → Prop} {pv : Pairs} {getB getD : Nat → Nat → Option (Blk ℝ)} {shift : ℝ} {A : Nat → Nat → ℝ}

theorem gathered_ok {blk0 blk1 : List Nat} {st bug : St} {m : Mat ℝ} (h : gatherB st blk0 blk1 = .ok (some m)) (h0 : m.nrow ≠ 0) (k : Mat ℝ → Res St) :
    gathered st blk0 blk1 bug k = k m := by
  unfold gathered
  rw [h]
  show (if m.nrow = 0 then _ else _) = _
  rw [if_neg h0]

theorem bil_LL {a b : Nat} (ha : NodeOk R A g a) (hb : NodeOk R A g b) {i j : Nat} (hi : i < (g.U a).ncol) (hj : j < (g.U b).ncol) :
    bil R.size A (g.L a i) (g.L b j) = ∑ s ∈ range (g.m R a), g.X a i s * ∑ t ∈ range (g.m R b), g.X b j t * bil R.size A (g.lo R a s) (g.lo R b t) := by
  rw [bil_L_left ha hi]
  exact sum_congr rfl fun s _ => by rw [bil_L_right hb hj]

theorem bil_LL' {a b : Nat} (ha : NodeOk R A g a) (hb : NodeOk R A g b) {i j : Nat} (hi : i < (g.U a).ncol) (hj : j < (g.U b).ncol) :
    bil R.size A (g.L a i) (g.L b j) = ∑ t ∈ range (g.m R b), g.X b j t * ∑ s ∈ range (g.m R a), g.X a i s * bil R.size A (g.lo R a s) (g.lo R b t) := by
  rw [bil_L_right hb hj]
  exact sum_congr rfl fun s _ => by rw [bil_L_left ha hi]

/-- The compression of a node, applied from the left and from the right. -/
theorem comp_mul (hc : Comp R g st v) : ∃ V, st.V v = some V ∧ V.nrow = g.m R v ∧ V.ncol = (g.U v).ncol ∧
    (R.arr.nChild v = 0 → ∃ S, st.S v = some S ∧
      (∀ (f : Nat → Nat → ℝ), ∀ a < (g.U v).ncol, ∀ j, mulTL V.nrow V.e (trsmL S.e f) a j = ∑ i ∈ range (g.m R v), g.X v a i * f i j) ∧
      (∀ (f : Nat → Nat → ℝ), ∀ a < (g.U v).ncol, ∀ j, mulR (g.m R v) (trsmR S.e f) V.e j a = ∑ i ∈ range (g.m R v), g.X v a i * f j i)) ∧
    (R.arr.nChild v ≠ 0 → ∃ M, st.Minv v = some M ∧ M.nrow = g.m R v ∧ M.ncol = g.m R v ∧
      (∀ (f : Nat → Nat → ℝ), ∀ a < (g.U v).ncol, ∀ j, mulTL V.nrow V.e (mulR M.ncol M.e f) a j = ∑ i ∈ range (g.m R v), g.X v a i * f i j) ∧
      (∀ (f : Nat → Nat → ℝ), ∀ a < (g.U v).ncol, ∀ j, mulR (g.m R v) f (mulR M.ncol M.e V.e) j a = ∑ i ∈ range (g.m R v), g.X v a i * f j i)) := by
  obtain ⟨V, h1, h2, h3, h4, h5⟩ := comp_use hc
  refine ⟨V, h1, h2, h3, fun h0 => ?_, fun h0 => ?_⟩
  · obtain ⟨S, s1, s2⟩ := h4 h0
    refine ⟨S, s1, fun f a ha j => ?_, fun f a ha j => ?_⟩
    · rw [h2]; exact s2 (fun i => f i j) a ha
    · rw [← s2 (fun i => f j i) a ha]
      exact sum_congr rfl fun t _ => mul_comm _ _
  · obtain ⟨M, s1, s2, s3, s4⟩ := h5 h0
    refine ⟨M, s1, s2, s3, fun f a ha j => ?_, fun f a ha j => ?_⟩
    · rw [h2, s3]; exact (s4 (fun i => f i j) a ha).1
    · rw [s3]; exact (s4 (fun i => f j i) a ha).2

theorem calc_step (hs : Source R pv adm getB getD) (hW : Nested R W) (hN : NodeInv P R (shifted R W shift) W nvec Ty g st Q)
    (hP : PairInv R (shifted R W shift) adm g st D) {a b : Nat} (hx : Vis R.arr adm a b) (hD : ¬ D (a, b)) (hup : ¬ D (par R.arr (a, b)))
    (hlow : adm a b = false → ¬ (R.arr.nChild a = 0 ∧ R.arr.nChild b = 0) → ∀ c ∈ ch R.arr a, ∀ d ∈ ch R.arr b, D (c, d))
    (hqa : R.arr.level b ≤ R.arr.level a → Q a ∧ Top R Q a) (hqb : R.arr.level a ≤ R.arr.level b → Q b ∧ Top R Q b) :
    ∃ B idx, calcB R adm getB getD st (a, b) = .ok { st with B := B, idx := idx } ∧
      PairInv R (shifted R W shift) adm g { st with B := B, idx := idx } (fun y => D y ∨ y = (a, b)) := by
  have hwf := hs.wf
  have T := hwf.tree
  have hlt := vis_lt T hx
  have hlv := vis_level T hx
  set A := shifted R W shift with hA
  have hNa : R.arr.level b ≤ R.arr.level a → NodeOk R A g a := fun h => hN.ok a (hqa h).1
  have hNb : R.arr.level a ≤ R.arr.level b → NodeOk R A g b := fun h => hN.ok b (hqb h).1
  have hCa : R.arr.level b ≤ R.arr.level a → _ := fun h => comp_mul (hN.comp a (hqa h).1)
  have hCb : R.arr.level a ≤ R.arr.level b → _ := fun h => comp_mul (hN.comp b (hqb h).1)
  have hma : g.m R a ≠ 0 := by
    by_cases h : R.arr.level b ≤ R.arr.level a
    · have h1 := hNa h
      have := h1.pos; have := h1.tall; rw [← h1.rows]; omega
    · rw [m_leaf (hlv.1 (by omega))]
      have := rows_pos hwf hlt.1; omega
  have hidx : st.idx a b = true := (hP.idx a b).2 ⟨hx, hup⟩
  have done1 : ∀ m, Holds' R A g a b m → (adm a b = true ∨ (R.arr.nChild a = 0 ∧ R.arr.nChild b = 0)) → ∀ r, r = Res.ok (setB st a b m) →
      ∃ B idx, r = .ok { st with B := B, idx := idx } ∧ PairInv R A adm g { st with B := B, idx := idx } (fun y => D y ∨ y = (a, b)) := by
    intro m hm h1 r hr
    exact ⟨_, st.idx, hr, (pair_done T hP hx hD hup hm).1 h1⟩
  have done2 : ∀ m, Holds' R A g a b m → adm a b = false → ¬ (R.arr.nChild a = 0 ∧ R.arr.nChild b = 0) → ∀ r, r = cleanB (ch R.arr a) (ch R.arr b) (setB st a b m) →
      ∃ B idx, r = .ok { st with B := B, idx := idx } ∧ PairInv R A adm g { st with B := B, idx := idx } (fun y => D y ∨ y = (a, b)) := by
    intro m hm h1 h2 r hr
    rw [hr]
    exact (pair_done T hP hx hD hup hm).2 h1 h2
  have hgather : ∀ m0, adm a b = false → ¬ (R.arr.nChild a = 0 ∧ R.arr.nChild b = 0) → ∃ e, gatherB (setB st a b m0) (ch R.arr a) (ch R.arr b) = .ok (some ⟨g.m R a, g.m R b, e⟩) ∧
      ∀ i < g.m R a, ∀ j < g.m R b, e i j = bil R.size A (g.lo R a i) (g.lo R b j) := fun m0 h1 h2 => gather_ok T hP hx hD h1 h2 (hlow h1 h2) m0
  unfold calcB
  dsimp only
  rw [if_neg (show ¬ st.idx a b = false by rw [hidx]; simp)]
  by_cases hl : R.arr.level a = R.arr.level b
  · rw [if_pos hl]
    have qa := hqa (by omega)
    have qb := hqb (by omega)
    have na := hNa (by omega)
    have nb := hNb (by omega)
    have sda : sd R g a b = (g.U a).ncol := if_pos (by omega)
    have sdb : sd R g b a = (g.U b).ncol := if_pos (by omega)
    have sLa : ∀ i, sL R g a b i = g.L a i := fun i => if_pos (by omega)
    have sLb : ∀ i, sL R g b a i = g.L b i := fun i => if_pos (by omega)
    by_cases had : adm a b = true
    · -- 1.1
      rw [if_pos had]
      obtain ⟨hmin, m, m1, m2, m3, m4⟩ := adm_block (g := g) (shift := shift) hs hW hx had hNa hNb
      rw [if_pos (by omega)] at m1 m2
      obtain ⟨wa, wa1, wa2⟩ := hN.W a qa.1 (by omega) qa.2
      obtain ⟨wb, wb1, wb2⟩ := hN.W b qb.1 (by omega) qb.2
      rw [m3, wa1, wb1]
      refine done1 ⟨(g.U a).ncol, (g.U b).ncol, mulR (R.U a).ncol wa (mulNT m.ncol m.e wb)⟩ ⟨sda.symm, sdb.symm, fun i hi j hj => ?_⟩ (Or.inl had) _ rfl
      rw [m4 i hi j hj]
      rw [sda] at hi
      rw [sdb] at hj
      show mulR (R.U a).ncol wa (mulNT m.ncol m.e wb) i j = _
      unfold mulR mulNT
      rw [m1]
      refine sum_congr rfl fun c hc => ?_
      rw [side_W (by omega), wa2 i hi c (mem_range.1 hc)]
      congr 1
      refine sum_congr rfl fun d hd => ?_
      rw [side_W (by omega), wb2 j hj d (by rw [← m2]; exact mem_range.1 hd)]
    have had : adm a b = false := by simpa using had
    rw [if_neg (by rw [had]; simp)]
    obtain ⟨V0, v1, v2, v3, v4, v5⟩ := hCa (by omega)
    obtain ⟨V1, w1, w2, w3, w4, w5⟩ := hCb (by omega)
    by_cases h0 : R.arr.nChild a = 0 ∧ R.arr.nChild b = 0
    · -- 1.2
      rw [if_pos h0]
      obtain ⟨m, m1, m2, m3, m4⟩ := dense_block (g := g) (shift := shift) hs hW hx had h0.1 h0.2
      obtain ⟨S0, s1, s2, s3⟩ := v4 h0.1
      obtain ⟨S1, t1, t2, t3⟩ := w4 h0.2
      rw [m3, s1, t1, v1, w1]
      refine done1 ⟨V0.ncol, V1.ncol, mulR m.ncol (trsmR S1.e (mulTL V0.nrow V0.e (trsmL S0.e m.e))) V1.e⟩
        ⟨v3.trans sda.symm, w3.trans sdb.symm, fun i hi j hj => ?_⟩ (Or.inr h0) _ rfl
      rw [sda] at hi
      rw [sdb] at hj
      rw [sLa, sLb, bil_LL' na nb hi hj]
      dsimp only
      rw [m2, t3 _ j hj i]
      refine sum_congr rfl fun t ht => ?_
      rw [s2 _ i hi t]
      congr 1
      exact sum_congr rfl fun s hs' => by rw [m4 s (mem_range.1 hs') t (mem_range.1 ht)]
    rw [if_neg h0]
    obtain ⟨e, e1, e2⟩ := hgather ⟨0, 0, fun _ _ => 0⟩ had h0
    by_cases c0 : R.arr.nChild a = 0
    · have c1 : R.arr.nChild b ≠ 0 := fun h => h0 ⟨c0, h⟩
      -- 1.5
      rw [if_neg (by omega), if_neg (by omega)]
      rw [ch_leaf c0, ch_inner c1] at e1 done2
      rw [gathered_ok e1 hma]
      obtain ⟨S0, s1, s2, s3⟩ := v4 c0
      obtain ⟨M1, t1, t2, t2', t3, t4⟩ := w5 c1
      rw [v1, w1, s1, t1]
      refine done2 ⟨V0.ncol, V1.ncol, mulTL V0.nrow V0.e (trsmL S0.e (mulR (g.m R b) e (mulR M1.ncol M1.e V1.e)))⟩
        ⟨v3.trans sda.symm, w3.trans sdb.symm, fun i hi j hj => ?_⟩ had h0 _ rfl
      rw [sda] at hi
      rw [sdb] at hj
      rw [sLa, sLb, bil_LL na nb hi hj]
      dsimp only
      rw [s2 _ i hi j]
      refine sum_congr rfl fun s hs' => ?_
      rw [t4 _ j hj s]
      congr 1
      exact sum_congr rfl fun t ht => by rw [e2 s (mem_range.1 hs') t (mem_range.1 ht)]
    · by_cases c1 : R.arr.nChild b = 0
      · -- 1.4
        rw [if_neg (by omega), if_pos (show 0 < R.arr.nChild a ∧ R.arr.nChild b = 0 from ⟨by omega, c1⟩)]
        rw [ch_leaf c1, ch_inner c0] at e1 done2
        rw [gathered_ok e1 hma]
        obtain ⟨M0, s1, s1', s1'', s2, s3⟩ := v5 c0
        obtain ⟨S1, t1, t2, t3⟩ := w4 c1
        rw [v1, w1, s1, t1]
        refine done2 ⟨V0.ncol, V1.ncol, mulR (g.m R b) (trsmR S1.e (mulTL V0.nrow V0.e (mulR M0.ncol M0.e e))) V1.e⟩
          ⟨v3.trans sda.symm, w3.trans sdb.symm, fun i hi j hj => ?_⟩ had h0 _ rfl
        rw [sda] at hi
        rw [sdb] at hj
        rw [sLa, sLb, bil_LL' na nb hi hj]
        dsimp only
        rw [t3 _ j hj i]
        refine sum_congr rfl fun t ht => ?_
        rw [s2 _ i hi t]
        congr 1
        exact sum_congr rfl fun s hs' => by rw [e2 s (mem_range.1 hs') t (mem_range.1 ht)]
      · -- 1.3
        rw [if_pos (show 0 < R.arr.nChild a ∧ 0 < R.arr.nChild b from ⟨by omega, by omega⟩)]
        rw [ch_inner c1, ch_inner c0] at e1 done2
        rw [gathered_ok e1 hma]
        obtain ⟨M0, s1, s1', s1'', s2, s3⟩ := v5 c0
        obtain ⟨M1, t1, t2, t2', t3, t4⟩ := w5 c1
        rw [v1, w1, s1, t1]
        refine done2 ⟨V0.ncol, V1.ncol, mulTL V0.nrow V0.e (mulR M0.ncol M0.e (mulR (g.m R b) e (mulR M1.ncol M1.e V1.e)))⟩
          ⟨v3.trans sda.symm, w3.trans sdb.symm, fun i hi j hj => ?_⟩ had h0 _ rfl
        rw [sda] at hi
        rw [sdb] at hj
        rw [sLa, sLb, bil_LL na nb hi hj]
        dsimp only
        rw [s2 _ i hi j]
        refine sum_congr rfl fun s hs' => ?_
        rw [t4 _ j hj s]
        congr 1
        exact sum_congr rfl fun t ht => by rw [e2 s (mem_range.1 hs') t (mem_range.1 ht)]
  rw [if_neg hl]
  by_cases hl2 : R.arr.level b < R.arr.level a
  · rw [if_pos hl2]
    have c1 : R.arr.nChild b = 0 := hlv.2.1 hl2
    rw [if_neg (show ¬ 0 < R.arr.nChild b by omega)]
    have qa := hqa (by omega)
    have na := hNa (by omega)
    have sda : sd R g a b = (g.U a).ncol := if_pos (by omega)
    have sdb : sd R g b a = g.m R b := if_neg (by omega)
    have sLa : ∀ i, sL R g a b i = g.L a i := fun i => if_pos (by omega)
    have sLb : ∀ i, sL R g b a i = g.lo R b i := fun i => if_neg (by omega)
    obtain ⟨V0, v1, v2, v3, v4, v5⟩ := hCa (by omega)
    by_cases had : adm a b = true
    · -- 2.1
      rw [if_pos had]
      obtain ⟨hmin, m, m1, m2, m3, m4⟩ := adm_block (g := g) (shift := shift) hs hW hx had hNa hNb
      rw [if_pos (by omega)] at m1
      rw [if_neg (by omega)] at m2
      obtain ⟨wa, wa1, wa2⟩ := hN.W a qa.1 (by omega) qa.2
      rw [m3, wa1]
      refine done1 ⟨(g.U a).ncol, m.ncol, mulR (R.U a).ncol wa m.e⟩ ⟨sda.symm, by rw [sdb, m_leaf c1, ← m2], fun i hi j hj => ?_⟩ (Or.inl had) _ rfl
      rw [m4 i hi j hj]
      rw [sda] at hi
      rw [sdb] at hj
      show mulR (R.U a).ncol wa m.e i j = _
      unfold mulR
      rw [m1]
      refine sum_congr rfl fun c hc => ?_
      rw [side_W (by omega), wa2 i hi c (mem_range.1 hc)]
      congr 1
      have := m_leaf (g := g) c1
      rw [sum_eq_single j]
      · rw [side_id hwf hlt.2 c1 hl2 hj, if_pos rfl, mul_one]
      · intro d _ hd
        rw [side_id hwf hlt.2 c1 hl2 hj, if_neg (Ne.symm hd), mul_zero]
      · intro hn
        rw [mem_range, m2] at hn
        omega
    have had : adm a b = false := by simpa using had
    rw [if_neg (by rw [had]; simp)]
    by_cases c0 : R.arr.nChild a = 0
    · -- 2.2
      rw [if_pos c0]
      obtain ⟨m, m1, m2, m3, m4⟩ := dense_block (g := g) (shift := shift) hs hW hx had c0 c1
      obtain ⟨S0, s1, s2, s3⟩ := v4 c0
      rw [m3, s1, v1]
      refine done1 ⟨V0.ncol, m.ncol, mulTL V0.nrow V0.e (trsmL S0.e m.e)⟩
        ⟨v3.trans sda.symm, m2.trans sdb.symm, fun i hi j hj => ?_⟩ (Or.inr ⟨c0, c1⟩) _ rfl
      rw [sda] at hi
      rw [sdb] at hj
      rw [sLa, sLb, bil_L_left na hi]
      dsimp only
      rw [s2 _ i hi j]
      exact sum_congr rfl fun s hs' => by rw [m4 s (mem_range.1 hs') j hj]
    · -- 2.3
      have h0 : ¬ (R.arr.nChild a = 0 ∧ R.arr.nChild b = 0) := fun h => c0 h.1
      rw [if_neg c0]
      obtain ⟨e, e1, e2⟩ := hgather ⟨0, 0, fun _ _ => 0⟩ had h0
      rw [ch_leaf c1, ch_inner c0] at e1 done2
      rw [gathered_ok e1 hma]
      obtain ⟨M0, s1, s1', s1'', s2, s3⟩ := v5 c0
      rw [v1, s1]
      refine done2 ⟨V0.ncol, g.m R b, mulTL V0.nrow V0.e (mulR M0.ncol M0.e e)⟩
        ⟨v3.trans sda.symm, sdb.symm, fun i hi j hj => ?_⟩ had h0 _ rfl
      rw [sda] at hi
      rw [sdb] at hj
      rw [sLa, sLb, bil_L_left na hi]
      dsimp only
      rw [s2 _ i hi j]
      exact sum_congr rfl fun s hs' => by rw [e2 s (mem_range.1 hs') j hj]
  · rw [if_neg hl2]
    have hl2 : R.arr.level a < R.arr.level b := by omega
    have c0 : R.arr.nChild a = 0 := hlv.1 hl2
    rw [if_neg (show ¬ 0 < R.arr.nChild a by omega)]
    have qb := hqb (by omega)
    have nb := hNb (by omega)
    have sda : sd R g a b = g.m R a := if_neg (by omega)
    have sdb : sd R g b a = (g.U b).ncol := if_pos (by omega)
    have sLa : ∀ i, sL R g a b i = g.lo R a i := fun i => if_neg (by omega)
    have sLb : ∀ i, sL R g b a i = g.L b i := fun i => if_pos (by omega)
    obtain ⟨V1, w1, w2, w3, w4, w5⟩ := hCb (by omega)
    by_cases had : adm a b = true
    · -- 3.1
      rw [if_pos had]
      obtain ⟨hmin, m, m1, m2, m3, m4⟩ := adm_block (g := g) (shift := shift) hs hW hx had hNa hNb
      rw [if_neg (by omega)] at m1
      rw [if_pos (by omega)] at m2
      obtain ⟨wb, wb1, wb2⟩ := hN.W b qb.1 (by omega) qb.2
      rw [m3, wb1]
      refine done1 ⟨m.nrow, (g.U b).ncol, mulNT m.ncol m.e wb⟩ ⟨by rw [sda, m_leaf c0, ← m1], sdb.symm, fun i hi j hj => ?_⟩ (Or.inl had) _ rfl
      rw [m4 i hi j hj]
      rw [sda] at hi
      rw [sdb] at hj
      have := m_leaf (g := g) c0
      rw [sum_eq_single i]
      · rw [side_id hwf hlt.1 c0 hl2 hi, if_pos rfl, one_mul]
        show mulNT m.ncol m.e wb i j = _
        unfold mulNT
        refine sum_congr rfl fun d hd => ?_
        rw [side_W (by omega), wb2 j hj d (by rw [← m2]; exact mem_range.1 hd)]
      · intro d _ hd
        rw [side_id hwf hlt.1 c0 hl2 hi, if_neg (Ne.symm hd), zero_mul]
      · intro hn
        rw [mem_range, m1] at hn
        omega
    have had : adm a b = false := by simpa using had
    rw [if_neg (by rw [had]; simp)]
    by_cases c1 : R.arr.nChild b = 0
    · -- 3.2
      rw [if_pos c1]
      obtain ⟨m, m1, m2, m3, m4⟩ := dense_block (g := g) (shift := shift) hs hW hx had c0 c1
      obtain ⟨S1, t1, t2, t3⟩ := w4 c1
      rw [m3, t1, w1]
      refine done1 ⟨m.nrow, V1.ncol, mulR m.ncol (trsmR S1.e m.e) V1.e⟩
        ⟨m1.trans sda.symm, w3.trans sdb.symm, fun i hi j hj => ?_⟩ (Or.inr ⟨c0, c1⟩) _ rfl
      rw [sda] at hi
      rw [sdb] at hj
      rw [sLa, sLb, bil_L_right nb hj]
      dsimp only
      rw [m2, t3 _ j hj i]
      exact sum_congr rfl fun s hs' => by rw [m4 i hi s (mem_range.1 hs')]
    · -- 3.3
      have h0 : ¬ (R.arr.nChild a = 0 ∧ R.arr.nChild b = 0) := fun h => c1 h.2
      rw [if_neg c1]
      obtain ⟨e, e1, e2⟩ := hgather ⟨0, 0, fun _ _ => 0⟩ had h0
      rw [ch_leaf c0, ch_inner c1] at e1 done2
      rw [gathered_ok e1 hma]
      obtain ⟨M1, t1, t2, t2', t3, t4⟩ := w5 c1
      rw [w1, t1]
      refine done2 ⟨g.m R a, V1.ncol, mulR (g.m R b) e (mulR M1.ncol M1.e V1.e)⟩
        ⟨sda.symm, w3.trans sdb.symm, fun i hi j hj => ?_⟩ had h0 _ rfl
      rw [sda] at hi
      rw [sdb] at hj
      rw [sLa, sLb, bil_L_right nb hj]
      dsimp only
      rw [t4 _ j hj i]
      exact sum_congr rfl fun s hs' => by rw [e2 i hi s (mem_range.1 hs')]

end

end H2Pack.SPD
