import Verif.Proof.SPD11

set_option linter.unusedSectionVars false

/-! # SPDHSS: the value of one block -/

namespace H2Pack.SPD
open H2Pack.MV (Mat Rep WF kid off kid_mem Nested entry nested_zero Blk IsBlock side admEntry)
open H2Pack.ULV (InRow fsub mulTL mulR deref child kid_row_unique shifted blkMat leaf_surj)
open H2Pack.Part (Arr kids ClusterTree Pairs)
open Finset

section
variable {R : Rep ℝ} {A : Nat → Nat → ℝ} {W : Nat → Nat → Nat → ℝ} {nvec : Nat} {g : Gh} {st : St} {Q : Nat → Prop}
  {adm : Nat → Nat → Bool} {D : Nat × Nat → Prop} {pv : Pairs} {getB getD : Nat → Nat → Option (Blk ℝ)}

theorem fetch_ok {get : Nat → Nat → Option (Blk ℝ)} {a b : Nat} {M : Mat ℝ} (h : IsBlock (get a b) M false) (h0 : 0 < M.nrow) :
    ∃ m : Mat ℝ, m.nrow = M.nrow ∧ m.ncol = M.ncol ∧ (∀ r < M.nrow, ∀ c < M.ncol, m.e r c = M.e r c) ∧ ∀ bug k, fetch get a b bug k = k m := by
  obtain ⟨d, hd, he⟩ := h
  refine ⟨⟨M.nrow, M.ncol, fun i j => d (i * M.ncol + j)⟩, rfl, rfl, he, fun bug k => ?_⟩
  unfold fetch
  rw [hd]
  dsimp only
  rw [if_neg (by omega)]
  congr 1

/-! ## Applying the compression of a node -/

/-- The three ways of the program. -/
theorem comp_use (hc : Comp R g st v) : ∃ V, st.V v = some V ∧ V.nrow = g.m R v ∧ V.ncol = (g.U v).ncol ∧
    (R.arr.nChild v = 0 → ∃ S, st.S v = some S ∧ ∀ (f : Nat → ℝ), ∀ a < (g.U v).ncol,
      ∑ t ∈ range (g.m R v), V.e t a * fsub false S.e f t = ∑ i ∈ range (g.m R v), g.X v a i * f i) ∧
    (R.arr.nChild v ≠ 0 → ∃ M, st.Minv v = some M ∧ M.nrow = g.m R v ∧ M.ncol = g.m R v ∧ ∀ (f : Nat → ℝ), ∀ a < (g.U v).ncol,
      ∑ t ∈ range (g.m R v), V.e t a * ∑ i ∈ range (g.m R v), M.e t i * f i = ∑ i ∈ range (g.m R v), g.X v a i * f i ∧
      ∑ j ∈ range (g.m R v), f j * ∑ t ∈ range (g.m R v), M.e j t * V.e t a = ∑ i ∈ range (g.m R v), g.X v a i * f i) := by
  obtain ⟨V, ki, h1, h2, h3, h4, h5, h6⟩ := hc
  have key : ∀ (f : Nat → ℝ), ∀ a < (g.U v).ncol, ∑ t ∈ range (g.m R v), V.e t a * ∑ i ∈ range (g.m R v), ki t i * f i = ∑ i ∈ range (g.m R v), g.X v a i * f i := by
    intro f a ha
    have : ∀ i ∈ range (g.m R v), g.X v a i * f i = ∑ t ∈ range (g.m R v), V.e t a * (ki t i * f i) := by
      intro i hi
      rw [h4 a (by omega) i (mem_range.1 hi), sum_mul]
      exact sum_congr rfl fun t _ => by ring
    rw [sum_congr rfl this, sum_comm]
    exact sum_congr rfl fun t _ => by rw [mul_sum]
  refine ⟨V, h1, h2, h3, fun h0 => ?_, fun h0 => ?_⟩
  · obtain ⟨S, hS, hS2⟩ := h5 h0
    refine ⟨S, hS, fun f a ha => ?_⟩
    rw [← key f a ha]
    exact sum_congr rfl fun t ht => by rw [hS2 f t (mem_range.1 ht)]
  · obtain ⟨hM, hsym⟩ := h6 h0
    refine ⟨_, hM, rfl, rfl, fun f a ha => ⟨key f a ha, ?_⟩⟩
    rw [← key f a ha]
    simp only [mul_sum]
    rw [sum_comm]
    refine sum_congr rfl fun t _ => sum_congr rfl fun j _ => ?_
    show f j * (ki j t * V.e t a) = V.e t a * (ki t j * f j)
    rw [hsym j t]; ring

theorem bil_L_left {v : Nat} (hN : NodeOk R A g v) {a : Nat} (ha : a < (g.U v).ncol) (y : Nat → ℝ) :
    bil R.size A (g.L v a) y = ∑ i ∈ range (g.m R v), g.X v a i * bil R.size A (g.lo R v i) y := by
  rw [← bil_left]
  exact bil_congr (fun r _ => hN.frame a ha r) (fun _ _ => rfl)

theorem bil_L_right {v : Nat} (hN : NodeOk R A g v) {a : Nat} (ha : a < (g.U v).ncol) (x : Nat → ℝ) :
    bil R.size A x (g.L v a) = ∑ i ∈ range (g.m R v), g.X v a i * bil R.size A x (g.lo R v i) := by
  rw [← bil_right]
  exact bil_congr (fun _ _ => rfl) (fun r _ => hN.frame a ha r)

/-! ## Admissible pairs -/

theorem vis_rows (hwf : WF R) {a b : Nat} (h : Vis R.arr adm a b) {r q : Nat} (h1 : InRow R a r) (h2 : InRow R b q) : r ≠ q := by
  rintro rfl
  have e1 := (row_node hwf.kdim a r).1 h1
  have e2 := (row_node hwf.kdim b r).1 h2
  rcases vis_facts hwf.tree h with h | h <;> omega

theorem lo_sup_leaf {v : Nat} (h0 : R.arr.nChild v = 0) {i : Nat} (hi : i < g.m R v) {r : Nat} (hr : ¬ InRow R v r) : g.lo R v i r = 0 := by
  rw [lo_leaf h0, if_neg]
  rintro rfl
  rw [m_leaf h0] at hi
  exact hr ⟨by omega, by omega⟩

/-- The vectors of a side of a block vanish outside the rows of the node. -/
theorem sL_sup (T : ClusterTree R.arr R.nPoint) {a b : Nat} (hx : Vis R.arr adm a b ∨ Vis R.arr adm b a) (hN : R.arr.level b ≤ R.arr.level a → NodeOk R A g a)
    {i : Nat} (hi : i < sd R g a b) {r : Nat} (hr : ¬ InRow R a r) : sL R g a b i r = 0 := by
  unfold sd at hi
  unfold sL
  by_cases hl : R.arr.level b ≤ R.arr.level a
  · rw [if_pos hl] at hi ⊢
    exact (hN hl).sup i hi r hr
  · rw [if_neg hl] at hi ⊢
    have h0 : R.arr.nChild a = 0 := by
      rcases hx with h | h
      · exact (vis_level T h).1 (by omega)
      · exact (vis_level T h).2.1 (by omega)
    exact lo_sup_leaf h0 hi hr

theorem bil_rows {a b : Nat} {x y : Nat → ℝ} (hx : ∀ r, ¬ InRow R a r → x r = 0) (hy : ∀ r, ¬ InRow R b r → y r = 0)
    {C : Nat → Nat → ℝ} (hC : ∀ r q, InRow R a r → InRow R b q → A r q = C r q) : bil R.size A x y = bil R.size C x y := by
  unfold bil
  refine sum_congr rfl fun r _ => sum_congr rfl fun q _ => ?_
  by_cases h1 : InRow R a r
  · by_cases h2 : InRow R b q
    · rw [hC r q h1 h2]
    · rw [hy q h2]; ring
  · rw [hx r h1]; ring

theorem bil_adm {N p q : Nat} {s0 s1 B : Nat → Nat → ℝ} (x y : Nat → ℝ) :
    bil N (fun r t => ∑ c ∈ range p, ∑ d ∈ range q, s0 r c * B c d * s1 t d) x y =
      ∑ c ∈ range p, (∑ r ∈ range N, x r * s0 r c) * ∑ d ∈ range q, B c d * ∑ t ∈ range N, y t * s1 t d := by
  unfold bil
  have : ∀ r ∈ range N, ∑ t ∈ range N, x r * (∑ c ∈ range p, ∑ d ∈ range q, s0 r c * B c d * s1 t d) * y t =
      ∑ c ∈ range p, (x r * s0 r c) * ∑ d ∈ range q, B c d * ∑ t ∈ range N, y t * s1 t d := by
    intro r _
    have : ∀ t ∈ range N, x r * (∑ c ∈ range p, ∑ d ∈ range q, s0 r c * B c d * s1 t d) * y t =
        ∑ c ∈ range p, (x r * s0 r c) * ∑ d ∈ range q, B c d * (y t * s1 t d) := by
      intro t _
      simp only [mul_sum, sum_mul]
      exact sum_congr rfl fun c _ => sum_congr rfl fun d _ => by ring
    rw [sum_congr rfl this, sum_comm]
    refine sum_congr rfl fun c _ => ?_
    rw [← mul_sum, sum_comm]
    congr 1
    exact sum_congr rfl fun d _ => by rw [mul_sum]
  rw [sum_congr rfl this, sum_comm]
  exact sum_congr rfl fun c _ => by rw [sum_mul]

variable {shift : ℝ}

theorem rows_pos (hwf : WF R) {v : Nat} (hv : v < R.arr.nNode) : 0 < R.rowE v - R.rowS v := by
  have := hwf.tree.clusterLe v hv
  unfold Rep.rowE Rep.rowS
  have h1 := Nat.mul_lt_mul_of_pos_left (show R.arr.ptS v < R.arr.ptE v + 1 by omega) hwf.kdim
  omega

theorem src_cov (hs : Source R pv adm getB getD) : ∀ p < R.nPoint, ∀ q < R.nPoint, (H2Pack.Part.blocks R.arr pv).countP (fun x => H2Pack.Part.Holds R.arr p q x) = 1 :=
  (found_spec hs.wf.tree hs.found).2.2.1

/-- The block of an admissible pair. -/
theorem adm_block (hs : Source R pv adm getB getD) (hW : Nested R W) {a b : Nat} (hx : Vis R.arr adm a b) (hadm : adm a b = true)
    (hNa : R.arr.level b ≤ R.arr.level a → NodeOk R (shifted R W shift) g a) (hNb : R.arr.level a ≤ R.arr.level b → NodeOk R (shifted R W shift) g b) :
    R.minAdm ≤ max (R.arr.level a) (R.arr.level b) ∧ ∃ m : Mat ℝ,
      m.nrow = (if R.arr.level b ≤ R.arr.level a then (R.U a).ncol else R.rowE a - R.rowS a) ∧
      m.ncol = (if R.arr.level a ≤ R.arr.level b then (R.U b).ncol else R.rowE b - R.rowS b) ∧ (∀ bug k, fetch getB a b bug k = k m) ∧
      ∀ i < sd R g a b, ∀ j < sd R g b a, bil R.size (shifted R W shift) (sL R g a b i) (sL R g b a j) =
        ∑ c ∈ range m.nrow, (∑ r ∈ range R.size, sL R g a b i r * side R W a b r c) * ∑ d ∈ range m.ncol, m.e c d * ∑ t ∈ range R.size, sL R g b a j t * side R W b a t d := by
  have hwf := hs.wf
  have T := hwf.tree
  have hlt := vis_lt T hx
  obtain ⟨i0, hi0, he⟩ : ∃ i, ∃ h : i < R.adm.length, R.adm[i] = (a, b) := by
    have : (a, b) ∈ R.adm := by rw [hs.adm]; exact ((found_spec T hs.found).1 (a, b)).2 ⟨hx, hadm⟩
    obtain ⟨i, hi, he⟩ := List.getElem_of_mem this
    exact ⟨i, hi, he⟩
  have hlv : R.minAdm ≤ max (R.arr.level a) (R.arr.level b) := hwf.admLevel (a, b) (by rw [← he]; exact List.getElem_mem hi0)
  have hrow := hwf.bRow i0 hi0
  have hcol := hwf.bCol i0 hi0
  have hblk := hs.b i0 hi0
  rw [he] at hrow hcol hblk
  dsimp only at hrow hcol hblk
  have hpos : 0 < (R.B i0).nrow := by
    rw [hrow]
    split
    · exact hwf.rank a hlt.1 (by omega)
    · exact rows_pos hwf hlt.1
  obtain ⟨m, m1, m2, m3, m4⟩ := fetch_ok hblk hpos
  refine ⟨hlv, m, by rw [m1, hrow], by rw [m2, hcol], m4, fun i hi j hj => ?_⟩
  have hgetD : R.adm.getD i0 (0, 0) = (a, b) := by simp [List.getD, hi0, he]
  rw [bil_rows (a := a) (b := b) (C := fun r q => ∑ c ∈ range m.nrow, ∑ d ∈ range m.ncol, side R W a b r c * m.e c d * side R W b a q d)
    (fun r hr => sL_sup T (Or.inl hx) hNa hi hr) (fun r hr => sL_sup T (Or.inr hx) hNb hj hr)]
  · exact bil_adm _ _
  · intro r q h1 h2
    have hr := row_lt hwf hlt.1 h1
    have hq := row_lt hwf hlt.2 h2
    unfold shifted
    rw [if_neg (vis_rows hwf hx h1 h2), add_zero, (entry_eq hwf hW hs.adm hs.inadm (src_cov hs) hr hq).2.2 i0 hi0 (by rw [he]; exact h1) (by rw [he]; exact h2)]
    unfold admEntry
    rw [hgetD, m1, m2]
    refine sum_congr rfl fun c hc => sum_congr rfl fun d hd => ?_
    rw [m3 c (mem_range.1 hc) d (mem_range.1 hd)]

/-- The side of a compressed node. -/
theorem side_W {a b i c : Nat} (hl : R.arr.level b ≤ R.arr.level a) : ∑ r ∈ range R.size, sL R g a b i r * side R W a b r c = ∑ r ∈ range R.size, g.L a i r * W a r c := by
  refine sum_congr rfl fun r _ => ?_
  unfold sL side
  rw [if_pos hl, if_pos hl]

/-- The side of a leaf that is not compressed. -/
theorem side_id (hwf : WF R) {a b i c : Nat} (ha : a < R.arr.nNode) (h0 : R.arr.nChild a = 0) (hl : R.arr.level a < R.arr.level b) (hi : i < g.m R a) :
    ∑ r ∈ range R.size, sL R g a b i r * side R W a b r c = if i = c then 1 else 0 := by
  rw [m_leaf h0] at hi
  rw [sum_eq_single (R.rowS a + i)]
  · unfold sL side
    rw [if_neg (by omega), if_neg (by omega), lo_leaf h0, if_pos rfl, one_mul]
    by_cases h : i = c
    · rw [if_pos h, if_pos (by omega)]
    · rw [if_neg h, if_neg (by omega)]
  · intro r _ hr
    unfold sL
    rw [if_neg (by omega), lo_leaf h0, if_neg hr, zero_mul]
  · intro hn
    exact absurd (mem_range.2 (row_lt hwf ha ⟨by omega, by omega⟩)) hn

/-- The block of two leaves. -/
theorem dense_block (hs : Source R pv adm getB getD) (hW : Nested R W) {a b : Nat} (hx : Vis R.arr adm a b) (hadm : adm a b = false)
    (ha : R.arr.nChild a = 0) (hb : R.arr.nChild b = 0) :
    ∃ m : Mat ℝ, m.nrow = g.m R a ∧ m.ncol = g.m R b ∧ (∀ bug k, fetch getD a b bug k = k m) ∧
      ∀ i < g.m R a, ∀ j < g.m R b, m.e i j = bil R.size (shifted R W shift) (g.lo R a i) (g.lo R b j) := by
  have hwf := hs.wf
  have T := hwf.tree
  have hlt := vis_lt T hx
  obtain ⟨i0, hi0, he⟩ : ∃ i, ∃ h : i < R.inadm.length, R.inadm[i] = (a, b) := by
    have : (a, b) ∈ R.inadm := by rw [hs.inadm]; exact ((found_spec T hs.found).2.1 (a, b)).2 ⟨hx, hadm, ha, hb⟩
    obtain ⟨i, hi, he⟩ := List.getElem_of_mem this
    exact ⟨i, hi, he⟩
  have hd := hwf.d1 i0 hi0
  have hblk := hs.d1 i0 hi0
  rw [he] at hd hblk
  dsimp only at hd hblk
  obtain ⟨m, m1, m2, m3, m4⟩ := fetch_ok hblk (by rw [hd.1]; exact rows_pos hwf hlt.1)
  refine ⟨m, by rw [m1, hd.1, m_leaf ha], by rw [m2, hd.2, m_leaf hb], m4, fun i hi j hj => ?_⟩
  rw [m_leaf ha] at hi
  rw [m_leaf hb] at hj
  have r1 : InRow R a (R.rowS a + i) := ⟨by omega, by omega⟩
  have r2 : InRow R b (R.rowS b + j) := ⟨by omega, by omega⟩
  have l1 := row_lt hwf hlt.1 r1
  have l2 := row_lt hwf hlt.2 r2
  rw [m3 i (by rw [hd.1]; exact hi) j (by rw [hd.2]; exact hj)]
  unfold bil
  rw [sum_eq_single (R.rowS a + i), sum_eq_single (R.rowS b + j)]
  · rw [lo_leaf ha, if_pos rfl, lo_leaf hb, if_pos rfl, one_mul, mul_one]
    unfold shifted
    rw [if_neg (vis_rows hwf hx r1 r2), add_zero, (entry_eq hwf hW hs.adm hs.inadm (src_cov hs) l1 l2).2.1 i0 hi0 (by rw [he]; exact r1) (by rw [he]; exact r2), he]
    congr 1 <;> dsimp only <;> omega
  · intro q _ hq; rw [lo_leaf (g := g) hb j q, if_neg hq, mul_zero]
  · intro hn; exact absurd (mem_range.2 l2) hn
  · intro r _ hr; exact sum_eq_zero fun q _ => by rw [lo_leaf ha, if_neg hr]; ring
  · intro hn; exact absurd (mem_range.2 l1) hn

end

end H2Pack.SPD
