import Verif.Proof.SPD9
import Verif.Proof.ULV11

set_option linter.unusedSectionVars false

/-! # SPDHSS: one node -/

namespace H2Pack.SPD
open H2Pack.MV (Mat Rep WF kid off kid_mem Nested entry nested_zero)
open H2Pack.ULV (InRow fsub mulTL mulR Lapack deref child kid_row_unique)
open H2Pack.Part (Arr kids ClusterTree)
open Finset

section
variable {R : Rep ℝ} {A : Nat → Nat → ℝ} {W : Nat → Nat → Nat → ℝ} {nvec : Nat} {Ty : Nat → Nat → Nat → ℝ} {g : Gh} {st : St} {Q : Nat → Prop} {P : Params}

theorem low_iff (hwf : WF R) (hlow : ∀ v < R.arr.nNode, R.arr.level v < R.minAdm → (R.U v).ncol = 0) {v : Nat} (hv : v < R.arr.nNode) :
    0 < (R.U v).ncol ↔ R.minAdm ≤ R.arr.level v := by
  constructor
  · intro h
    by_contra hc
    have := hlow v hv (by omega)
    omega
  · exact hwf.rank v hv

/-- Product of the unit vectors of a leaf and its basis. -/
theorem lo_W_leaf (hwf : WF R) (hW : Nested R W) {v : Nat} (hv : v < R.arr.nNode) (h0 : R.arr.nChild v = 0) (hl : R.minAdm ≤ R.arr.level v) {i t : Nat} (hi : i < g.m R v)
    (ht : t < (R.U v).ncol) : ∑ r ∈ range R.size, g.lo R v i r * W v r t = (R.U v).e i t := by
  rw [m_leaf h0] at hi
  have hin : InRow R v (R.rowS v + i) := ⟨by omega, by omega⟩
  rw [sum_eq_single (R.rowS v + i)]
  · rw [lo_leaf h0, if_pos rfl, one_mul, hW.leaf v hv hl h0 _ t ht, if_pos ⟨by omega, by omega⟩]
    congr 1
    omega
  · intro r _ hr
    rw [lo_leaf h0, if_neg hr, zero_mul]
  · intro hn
    exact absurd (mem_range.2 (row_lt hwf hv hin)) hn

theorem lo_leaf_sum (hwf : WF R) {v : Nat} (hv : v < R.arr.nNode) (h0 : R.arr.nChild v = 0) {i : Nat} (hi : i < g.m R v) (F : Nat → ℝ) :
    ∑ r ∈ range R.size, g.lo R v i r * F r = F (R.rowS v + i) := by
  rw [m_leaf h0] at hi
  have hin : InRow R v (R.rowS v + i) := ⟨by omega, by omega⟩
  rw [sum_eq_single (R.rowS v + i)]
  · rw [lo_leaf h0, if_pos rfl, one_mul]
  · intro r _ hr
    rw [lo_leaf h0, if_neg hr, zero_mul]
  · intro hn
    exact absurd (mem_range.2 (row_lt hwf hv hin)) hn

theorem leaf_step (hwf : WF R) (hA : PD R.size A) (hW : Nested R W) (hlow : ∀ v < R.arr.nNode, R.arr.level v < R.minAdm → (R.U v).ncol = 0)
    (hLp : P.lp.Correct) (hDf : P.lp.Definite) (hLq : P.lq.Correct) (hr : 0 < P.maxRank) (hn : 0 < nvec)
    (h : NodeInv P R A W nvec Ty g st Q) {v : Nat} (hv : v + 1 < R.arr.nNode) (hQ : ¬ Q v) (htop : Top R Q v) (h0 : R.arr.nChild v = 0) (hlv : 1 ≤ R.arr.level v)
    {D : Mat ℝ} (hDr : D.nrow = R.rowE v - R.rowS v) (hDc : D.ncol = R.rowE v - R.rowS v)
    (hD : ∀ i < R.rowE v - R.rowS v, ∀ j < R.rowE v - R.rowS v, D.e i j = A (R.rowS v + i) (R.rowS v + j)) :
    ∃ g' st', leafNode P R D st v = .ok st' ∧ (∀ u, u ≠ v → g'.U u = g.U u ∧ g'.L u = g.L u ∧ g'.X u = g.X u) ∧
      NodeInv P R A W nvec Ty g' st' (fun u => Q u ∨ u = v) ∧ st'.B = st.B ∧ st'.idx = st.idx := by
  have T := hwf.tree
  have hvn : v < R.arr.nNode := by omega
  have hkn : kids R.arr v = [] := by
    have : (kids R.arr v).length = 0 := by simp [kids, h0]
    exact List.length_eq_zero_iff.1 this
  have hkid : ∀ c ∈ kids R.arr v, NodeOk R A g c := by rw [hkn]; simp
  have hm : g.m R v = R.rowE v - R.rowS v := m_leaf h0
  have hmpos : 0 < g.m R v := by
    rw [hm]
    have := T.clusterLe v hvn
    unfold Rep.rowE Rep.rowS
    have h1 := Nat.mul_lt_mul_of_pos_left (show R.arr.ptS v < R.arr.ptE v + 1 by omega) hwf.kdim
    omega
  have hgD : ∀ i < g.m R v, ∀ j < g.m R v, g.gp R A v i j = D.e i j := by
    intro i hi j hj
    rw [gp_leaf h0]
    rw [hm] at hi hj
    rw [hD i hi j hj]
    unfold bil
    have r1 : R.rowS v + i < R.size := row_lt hwf hvn ⟨by omega, by omega⟩
    have r2 : R.rowS v + j < R.size := row_lt hwf hvn ⟨by omega, by omega⟩
    rw [sum_eq_single (R.rowS v + i), sum_eq_single (R.rowS v + j)]
    · rw [lo_leaf h0, if_pos rfl, lo_leaf h0, if_pos rfl]; ring
    · intro q _ hq; rw [lo_leaf (g := g) h0 j q, if_neg hq, mul_zero]
    · intro hn; exact absurd (mem_range.2 r2) hn
    · intro r _ hr; exact sum_eq_zero fun q _ => by rw [lo_leaf h0, if_neg hr]; ring
    · intro hn; exact absurd (mem_range.2 r1) hn
  have hpd : (Matrix.of fun i j : Fin (g.m R v) => D.e i j).PosDef := by
    rw [pd_iff]
    refine ⟨fun i hi j hj => ?_, fun c hc => ?_⟩
    · rw [← hgD i hi j hj, ← hgD j hj i hi]; exact gp_symm hA
    · rw [← quad_congr hgD (fun _ _ => rfl)]
      exact gp_pos hwf hA hvn hkid c hc
  have hDm : D.nrow = g.m R v := by rw [hDr, hm]
  have hDm' : D.ncol = g.m R v := by rw [hDc, hm]
  have hinfo : (P.lp.potrf D.nrow D.e).1 = 0 := by
    rw [hDm, hDf]
    exact H2Pack.ULV.pd_lower (t := D.e) hpd
  set S : Mat ℝ := ⟨D.nrow, D.ncol, fun i j => if i < j then 0 else (P.lp.potrf D.nrow D.e).2 i j⟩ with hS
  obtain ⟨hs1, hs2, hs3⟩ := chol_gram hLp (d := D.nrow) (T := D.e) (l := S.e) hinfo rfl (by
    intro i hi j hj
    rw [hDm] at hi hj
    exact (pd_iff.1 hpd).1 i hi j hj)
  rw [hDm] at hs1 hs3
  obtain ⟨y0, hy0, hy0c⟩ := h.yLeaf v hvn hQ h0 0 hlv
  obtain ⟨b1, b2, b3, b4⟩ := basisV_spec P hLq hmpos hn hr (trsmL S.e y0)
  set V := basisV P (g.m R v) nvec (trsmL S.e y0) with hV
  obtain ⟨Y', c1, c2, c3, c4⟩ := shiftY_ok (fun y => ⟨V.ncol, y.ncol, mulTL V.nrow V.e (trsmL S.e y.e)⟩) V.ncol nvec (fun y => ⟨rfl, rfl⟩) hn hlv (T.levelLe v hvn) (st.Y v)
    (fun l hl => by obtain ⟨e, he, _⟩ := h.yLeaf v hvn hQ h0 l hl; exact ⟨_, e, he⟩) (fun l hl hl2 => h.yRest v hvn hQ l hl2 (Or.inr hl))
  set st1 : St := { st with
    S := Function.update st.S v (some S)
    V := Function.update st.V v (some V)
    U := Function.update st.U v (some ⟨S.nrow, V.ncol, mulR S.ncol S.e V.e⟩)
    Y := Function.update st.Y v (Function.update Y' (R.arr.level v - 1) none) } with hst1
  set Wv : Mat ℝ := ⟨V.ncol, (R.U v).ncol, mulTL V.nrow V.e (trsmL S.e (R.U v).e)⟩ with hWv
  set st2 : St := if 0 < (R.U v).ncol then { st1 with W := Function.update st1.W v (some Wv) } else st1 with hst2
  have hrun : leafNode P R D st v = .ok st2 := by
    unfold leafNode
    dsimp only
    rw [if_neg (not_not.2 hinfo), hy0]
    unfold need
    dsimp only
    rw [if_neg (by rw [not_not, ← hm, hDm]), ← hm]
    rw [show (P.lp.potrf D.nrow D.e).2 = (P.lp.potrf D.nrow D.e).2 from rfl]
    change (do
      let Y ← shiftY (fun y => ⟨V.ncol, y.ncol, mulTL V.nrow V.e (trsmL S.e y.e)⟩) (R.arr.maxLevel - 1) 1 0 (st.Y v)
      _) = _
    rw [c1]
    by_cases hU : 0 < (R.U v).ncol
    · have hl := (low_iff hwf hlow hvn).1 hU
      have := hwf.uLeaf v hvn hl h0
      rw [hst2, if_pos hU]
      show (if 0 < (R.U v).ncol then (if (R.U v).nrow = D.nrow then _ else _) else _) = _
      rw [if_pos hU, if_pos (by rw [this, hDr])]
    · rw [hst2, if_neg hU]
      show (if 0 < (R.U v).ncol then (if (R.U v).nrow = D.nrow then _ else _) else _) = _
      rw [if_neg hU]
  have f2 : ∀ {α : Type} (f : St → α), (∀ s w, f { s with W := w } = f s) → f st2 = f st1 := by
    intro α f hf
    rw [hst2]
    split
    · exact hf _ _
    · rfl
  obtain ⟨g', e1, e2⟩ := node_done (k := S.e) (ki := sInv S.e) (V := V) (U := ⟨S.nrow, V.ncol, mulR S.ncol S.e V.e⟩) (st' := st2) hwf h hv hQ (by rw [hkn]; simp) htop b1 b2 b3 ⟨_, rfl⟩ b4
    (fun i hi j hj => by rw [hgD i hi j hj]; exact hs3 i hi j hj) (sInv_mul hs1 hs2) hDm rfl
    (fun i a => by show mulR D.ncol S.e V.e i a = _; rw [hDm']; rfl) (f2 (fun s => s.U) fun _ _ => rfl) (f2 (fun s => s.V) fun _ _ => rfl)
    (fun u hu => by rw [f2 (fun s => s.S) fun _ _ => rfl]; exact Function.update_of_ne hu _ _)
    (fun u hu => by rw [f2 (fun s => s.Minv) fun _ _ => rfl])
    (fun _ => ⟨S, by rw [f2 (fun s => s.S) fun _ _ => rfl]; exact Function.update_self _ _ _, fun b t ht => fsub_lin hs1 b ht⟩)
    (fun hc => absurd h0 hc)
    (fun u hu _ => by
      rw [hst2]
      split
      · exact Function.update_of_ne hu _ _
      · rfl)
    (fun hl => by
      have hU := (low_iff hwf hlow hvn).2 hl
      rw [hst2, if_pos hU]
      refine ⟨Wv.e, Function.update_self _ _ _, fun a ha t ht => ?_⟩
      show mulTL V.nrow V.e (trsmL S.e (R.U v).e) a t = _
      unfold mulTL trsmL
      rw [b1]
      have : ∀ s ∈ range (g.m R v), V.e s a * fsub false S.e (fun r => (R.U v).e r t) s =
          ∑ i ∈ range (g.m R v), V.e s a * sInv S.e s i * ∑ r ∈ range R.size, g.lo R v i r * W v r t := by
        intro s hs
        rw [fsub_lin hs1 _ (mem_range.1 hs), mul_sum]
        refine sum_congr rfl fun i hi => ?_
        rw [lo_W_leaf hwf hW hvn h0 hl (mem_range.1 hi) ht]; ring
      rw [sum_congr rfl this, sum_comm]
      exact sum_congr rfl fun i _ => by rw [sum_mul])
    (fun u hu _ => by rw [f2 (fun s => s.Y) fun _ _ => rfl]; exact Function.update_of_ne hu _ _)
    (fun l hl => by
      rw [f2 (fun s => s.Y) fun _ _ => rfl]
      show ∃ e, (Function.update st.Y v (Function.update Y' (R.arr.level v - 1) none)) v l = _ ∧ _
      rw [Function.update_self, Function.update_of_ne (by omega), c4 l hl]
      obtain ⟨e, he, hec⟩ := h.yLeaf v hvn hQ h0 (l + 1) hl
      rw [he]
      refine ⟨_, rfl, fun a ha j hj => ?_⟩
      show ∑ s ∈ range V.nrow, V.e s a * fsub false S.e (fun r => e r j) s = _
      rw [b1]
      have : ∀ s ∈ range (g.m R v), V.e s a * fsub false S.e (fun r => e r j) s =
          ∑ i ∈ range (g.m R v), V.e s a * sInv S.e s i * ∑ r ∈ range R.size, g.lo R v i r * Ty (R.arr.level v - (l + 1)) r j := by
        intro s hs
        rw [fsub_lin hs1 _ (mem_range.1 hs), mul_sum]
        refine sum_congr rfl fun i hi => ?_
        rw [lo_leaf_sum hwf hvn h0 (mem_range.1 hi), hec i (by rw [← hm]; exact mem_range.1 hi) j hj]; ring
      rw [sum_congr rfl this, sum_comm]
      exact sum_congr rfl fun i _ => by rw [sum_mul])
    hV
    (fun i hi j hj => by
      show fsub false S.e (fun r => y0 r j) i = _
      rw [fsub_lin hs1 _ hi]
      refine sum_congr rfl fun s hs => ?_
      rw [lo_leaf_sum hwf hvn h0 (mem_range.1 hs), hy0c s (by rw [← hm]; exact mem_range.1 hs) j hj, Nat.sub_zero])
    (by rw [f2 (fun s => s.spd) fun _ _ => rfl]; exact h.spd)
  exact ⟨g', st2, hrun, e1, e2, f2 (fun s => s.B) fun _ _ => rfl, f2 (fun s => s.idx) fun _ _ => rfl⟩

/-! ## A node with children -/

theorem kids_len (A : Arr ℝ) (v : Nat) : (kids A v).length = A.nChild v := by simp [kids]

theorem kid_get {v k : Nat} (h : k < (kids R.arr v).length) : (kids R.arr v)[k] = kid R v k := by
  unfold kid; simp [List.getD, h]

theorem pos_kids (p : Nat → Nat) {v : Nat} : ∀ k ≤ R.arr.nChild v, pos p (kids R.arr v) k = ∑ j ∈ range k, p (kid R v j) := by
  intro k
  induction k with
  | zero => intro _; simp [pos_zero]
  | succ k ih =>
    intro hk
    have hk' : k < (kids R.arr v).length := by rw [kids_len]; omega
    rw [pos_succ p _ hk', ih (by omega), sum_range_succ, kid_get]

theorem sum_kids (p : Nat → Nat) (v : Nat) : ((kids R.arr v).map p).sum = ∑ j ∈ range (R.arr.nChild v), p (kid R v j) := by
  rw [← pos_length, kids_len, pos_kids p _ (le_refl _)]

/-- Products of the vectors of the children and the basis of their parent. -/
theorem lo_W_inner (hwf : WF R) (hW : Nested R W) {v : Nat} (hv : v < R.arr.nNode) (hl : R.minAdm ≤ R.arr.level v) (hk : ∀ c ∈ kids R.arr v, NodeOk R A g c) {k b t : Nat}
    (hk' : k < R.arr.nChild v) (hb : b < (g.U (kid R v k)).ncol) (ht : t < (R.U v).ncol) :
    ∑ r ∈ range R.size, g.lo R v (off (g.rep R) v k + b) r * W v r t =
      ∑ d ∈ range (R.U (kid R v k)).ncol, (∑ r ∈ range R.size, g.L (kid R v k) b r * W (kid R v k) r d) * (R.U v).e (off R v k + d) t := by
  have hN := hk _ (kid_mem hk')
  have : ∀ r ∈ range R.size, g.lo R v (off (g.rep R) v k + b) r * W v r t =
      ∑ d ∈ range (R.U (kid R v k)).ncol, g.L (kid R v k) b r * W (kid R v k) r d * (R.U v).e (off R v k + d) t := by
    intro r _
    rw [lo_inner hk' hb]
    by_cases hr : InRow R (kid R v k) r
    · rw [hW.inner v hv hl (by omega) r t ht, sum_eq_single k, mul_sum]
      · exact sum_congr rfl fun d _ => by ring
      · intro l hl' hne
        rw [mem_range] at hl'
        refine sum_eq_zero fun d hd => ?_
        have hc := H2Pack.MV.kid_level hwf hv hl (kid_mem (R := R) hl')
        rw [nested_zero hwf hW _ hc.1 hc.2.1 r (fun hin => hne (kid_row_unique hwf hv hl' hk' hin hr)) d (mem_range.1 hd), zero_mul]
      · intro hn; exact absurd (mem_range.2 hk') hn
    · rw [hN.sup b hb r hr]
      simp
  rw [sum_congr rfl this, sum_comm]
  exact sum_congr rfl fun d _ => by rw [sum_mul]

theorem inner_step (hwf : WF R) (hA : PD R.size A) (hW : Nested R W) (hlow : ∀ v < R.arr.nNode, R.arr.level v < R.minAdm → (R.U v).ncol = 0)
    (hLq : P.lq.Correct) (hr : 0 < P.maxRank) (hn : 0 < nvec)
    (h : NodeInv P R A W nvec Ty g st Q) {v : Nat} (hv : v + 1 < R.arr.nNode) (hQ : ¬ Q v) (hk : ∀ c ∈ kids R.arr v, Q c) (htop : Top R Q v) (h0 : R.arr.nChild v ≠ 0)
    (hlv : 1 ≤ R.arr.level v)
    (hB : ∀ k l, k < l → l < R.arr.nChild v → ∃ e, lookB st (kid R v k) (kid R v l) = some ⟨(g.U (kid R v k)).ncol, (g.U (kid R v l)).ncol, e⟩ ∧
      ∀ a < (g.U (kid R v k)).ncol, ∀ b < (g.U (kid R v l)).ncol, e a b = bil R.size A (g.L (kid R v k) a) (g.L (kid R v l) b)) :
    ∃ g' st', innerNode P R st v = .ok st' ∧ (∀ u, u ≠ v → g'.U u = g.U u ∧ g'.L u = g.L u ∧ g'.X u = g.X u) ∧
      NodeInv P R A W nvec Ty g' st' (fun u => Q u ∨ u = v) ∧ st'.B = st.B ∧ st'.idx = st.idx := by
  have T := hwf.tree
  have hvn : v < R.arr.nNode := by omega
  have hself : v ∉ kids R.arr v := fun h => by have := T.childLt v hvn v h; omega
  have hlen := kids_len R.arr v
  have hkne : kids R.arr v ≠ [] := by intro e; rw [e] at hlen; simp at hlen; omega
  have hkid : ∀ c ∈ kids R.arr v, NodeOk R A g c := fun c hc => h.ok c (hk c hc)
  have hkt : ∀ c ∈ kids R.arr v, Top R Q c := by
    intro c hc p hp hcp hq
    have e1 := T.parentOfChild v hvn c hc
    have e2 := T.parentOfChild p hp c hcp
    have : p = v := by rw [e1] at e2; exact_mod_cast e2.symm
    exact hQ (this ▸ hq)
  have hUk : ∀ j, j < R.arr.nChild v → st.U (child R v j) = some (g.U (kid R v j)) := fun j hj => h.U _ (hk _ (kid_mem hj))
  have hoffs : ∀ k ≤ R.arr.nChild v, offs R st.U v k = off (g.rep R) v k := by
    intro k hk'
    unfold offs off
    refine sum_congr rfl fun j hj => ?_
    rw [mem_range] at hj
    rw [hUk j (by omega)]
    rfl
  have hm : offs R st.U v (R.arr.nChild v) = g.m R v := by rw [hoffs _ (le_refl _), m_inner h0]
  have hmpos : 0 < g.m R v := by
    have h1 := m_lt (g := g) (R := R) (v := v) (k := 0) (b := 0) (by omega) ((hkid _ (kid_mem (by omega))).pos)
    omega
  have hsum : ((kids R.arr v).map fun c => (g.U c).ncol).sum = g.m R v := by
    rw [sum_kids, m_inner h0]; rfl
  -- the matrix that is factorized
  have htmp : ∀ k < R.arr.nChild v, ∀ l < R.arr.nChild v, k ≤ l → ∀ x < (g.U (kid R v k)).ncol, ∀ y < (g.U (kid R v l)).ncol,
      tmpB R st (P.junk v) v (off (g.rep R) v k + x) (off (g.rep R) v l + y) = if k = l then 0 else bil R.size A (g.L (kid R v k) x) (g.L (kid R v l) y) := by
    intro k hk' l hl hkl x hx y hy
    have := upper_blocks (R.arr.nChild v) (offs R st.U v) (fun k => (deref (st.U (child R v k))).ncol) (fun k => sum_range_succ _ _)
      (fun k l => deref (lookB st (child R v k) (child R v l))) (by
        intro k l hkl hl
        obtain ⟨e, he, _⟩ := hB k l hkl hl
        have he' : lookB st (child R v k) (child R v l) = some ⟨(g.U (kid R v k)).ncol, (g.U (kid R v l)).ncol, e⟩ := he
        rw [he', hUk k (by omega), hUk l hl]
        exact ⟨rfl, rfl⟩) (P.junk v) k hk' l hl hkl x (by rw [hUk k hk']; exact hx) y (by rw [hUk l hl]; exact hy)
    rw [hoffs k (by omega), hoffs l (by omega)] at this
    unfold tmpB
    refine Eq.trans this ?_
    by_cases hkl2 : k = l
    · rw [if_pos hkl2, if_pos hkl2]
    · rw [if_neg hkl2, if_neg hkl2]
      obtain ⟨e, he, he2⟩ := hB k l (by omega) hl
      have he' : lookB st (child R v k) (child R v l) = some ⟨(g.U (kid R v k)).ncol, (g.U (kid R v l)).ncol, e⟩ := he
      rw [he']
      exact he2 x hx y hy
  obtain ⟨v1, v2, v3⟩ := ev_spec hLq (n := g.m R v) (a := tmpB R st (P.junk v) v) (g := g.gp R A v) (fun i _ j _ => gp_symm hA) (by
      intro j hj i hij
      obtain ⟨k, hk', x, hx, rfl⟩ := find_m h0 (show i < g.m R v by omega)
      obtain ⟨l, hl, y, hy, rfl⟩ := find_m h0 hj
      have hkl : k ≤ l := by
        by_contra hc
        have h1 := H2Pack.ULV.off_mono (g.rep R) v (show l + 1 ≤ k by omega)
        rw [H2Pack.ULV.off_succ] at h1
        have : (((g.rep R).U (kid (g.rep R) v l)).ncol) = (g.U (kid R v l)).ncol := rfl
        omega
      rw [gp_inner hk' hl hx hy, htmp k hk' l hl hkl x hx y hy]
      by_cases hkl2 : k = l
      · subst hkl2
        rw [if_pos rfl, if_pos rfl, add_zero]
        by_cases hxy : x = y
        · rw [if_pos hxy, if_pos (by omega)]
        · rw [if_neg hxy, if_neg (by omega)]
      · rw [if_neg hkl2, if_neg hkl2, if_neg, zero_add]
        intro he
        exact hkl2 (H2Pack.ULV.off_unique (g.rep R) v (k := k) (l := l) hx hy he).1)
    (fun c hc => gp_pos hwf hA hvn hkid c hc)
  set ev := P.lq.syevd (g.m R v) (tmpB R st (P.junk v) v) with hev
  set M := specM (g.m R v) ev.2.1 (fun k => √(1 + ev.2.2 k)) with hM
  set Mi := specM (g.m R v) ev.2.1 (fun k => 1 / √(1 + ev.2.2 k)) with hMi
  -- the sampled matrices
  obtain ⟨Y1, y1, y2', y3, y4⟩ := stackY_ok R hself hkne (fun c => (g.U c).ncol) nvec (R.arr.level v) R.arr.maxLevel (T.levelLe v hvn) st.Y
    (fun c hc l hl => by
      obtain ⟨e, he, _⟩ := h.yDone c (hk c hc) (hkt c hc) l (by rw [T.childLevel v hvn c hc]; omega)
      exact ⟨e, he⟩) (fun l hl => h.yRest v hvn hQ l hl (Or.inl h0))
  have y2 : ∀ l < R.arr.level v, ∃ e, Y1 v l = some ⟨g.m R v, nvec, e⟩ ∧ ∀ i < g.m R v, ∀ j < nvec,
      e i j = ∑ r ∈ range R.size, g.lo R v i r * Ty (R.arr.level v - l) r j := by
    intro l hl
    obtain ⟨e, he, hec⟩ := y2' l hl
    refine ⟨e, by rw [he, hsum], fun i hi j hj => ?_⟩
    obtain ⟨k, hk', x, hx, rfl⟩ := find_m h0 hi
    have hk2 : k < (kids R.arr v).length := by omega
    have := hec k hk2 x (by rw [kid_get]; exact hx) j hj
    rw [pos_kids _ k (by omega), kid_get] at this
    obtain ⟨e', he', hec'⟩ := h.yDone _ (hk _ (kid_mem hk')) (hkt _ (kid_mem hk')) l (by rw [T.childLevel v hvn _ (kid_mem hk')]; omega)
    rw [he'] at this
    refine Eq.trans this ?_
    rw [lo_inner hk' hx]
    show e' x j = _
    rw [hec' x hx j hj, T.childLevel v hvn _ (kid_mem hk')]
    rw [show R.arr.level v + 1 - (l + 1) = R.arr.level v - l by omega]
  obtain ⟨y0, hy0, hy0c⟩ := y2 0 (by omega)
  obtain ⟨b1, b2, b3, b4⟩ := basisV_spec P hLq hmpos hn hr (mulR (g.m R v) Mi y0)
  set V := basisV P (g.m R v) nvec (mulR (g.m R v) Mi y0) with hV
  obtain ⟨Y', c1, c2, c3, c4⟩ := shiftY_ok (fun y => ⟨V.ncol, y.ncol, mulTL V.nrow V.e (mulR (g.m R v) Mi y.e)⟩) V.ncol nvec (fun y => ⟨rfl, rfl⟩) hn hlv (T.levelLe v hvn) (Y1 v)
    (fun l hl => by obtain ⟨e, he, _⟩ := y2 l hl; exact ⟨_, e, he⟩) (fun l hl hl2 => by rw [y3 l hl]; exact h.yRest v hvn hQ l hl2 (Or.inl h0))
  set st1 : St := { st with
    Minv := Function.update st.Minv v (some ⟨g.m R v, g.m R v, Mi⟩)
    V := Function.update st.V v (some V)
    U := Function.update st.U v (some ⟨g.m R v, V.ncol, mulR (g.m R v) M V.e⟩)
    Y := Function.update Y1 v (Function.update Y' (R.arr.level v - 1) none) } with hst1
  -- the bases of the H2 matrix
  set ws := (kids R.arr v).map (fun c => deref (st.W c)) with hws
  set Wv : Mat ℝ := ⟨V.ncol, (R.U v).ncol, mulTL V.nrow V.e (mulR (g.m R v) Mi (stackW ws (R.U v)).2)⟩ with hWv
  set st2 : St := if 0 < (R.U v).ncol then
    { st1 with W := (kids R.arr v).foldl (fun w c => Function.update w c none) (Function.update st1.W v (some Wv)) } else st1 with hst2
  have hwk : R.minAdm ≤ R.arr.level v → ∀ c ∈ kids R.arr v, ∃ e, st.W c = some ⟨(g.U c).ncol, (R.U c).ncol, e⟩ ∧
      ∀ a < (g.U c).ncol, ∀ t < (R.U c).ncol, e a t = ∑ r ∈ range R.size, g.L c a r * W c r t := by
    intro hl c hc
    exact h.W c (hk c hc) (by rw [T.childLevel v hvn c hc]; omega) (hkt c hc)
  have hsW : R.minAdm ≤ R.arr.level v → (stackW ws (R.U v)).1 = g.m R v ∧ ∀ k < R.arr.nChild v, ∀ a < (g.U (kid R v k)).ncol, ∀ t < (R.U v).ncol,
      (stackW ws (R.U v)).2 (off (g.rep R) v k + a) t = ∑ r ∈ range R.size, g.lo R v (off (g.rep R) v k + a) r * W v r t := by
    intro hl
    have hw := hwk hl
    obtain ⟨s1, s2⟩ := stackW_ok (kids R.arr v) (fun c => deref (st.W c)) (fun c => (g.U c).ncol) (fun c => (R.U c).ncol)
      (fun c hc => by obtain ⟨e, he, _⟩ := hw c hc; rw [he]; rfl) (fun c hc => by obtain ⟨e, he, _⟩ := hw c hc; rw [he]; rfl) (R.U v)
    refine ⟨by rw [s1, hsum], fun k hk' a ha t ht => ?_⟩
    have hk2 : k < (kids R.arr v).length := by omega
    have := s2 k hk2 a (by rw [kid_get]; exact ha) t ht
    rw [pos_kids _ k (by omega), pos_kids _ k (by omega), kid_get] at this
    rw [lo_W_inner hwf hW hvn hl hkid hk' ha ht]
    refine Eq.trans this (sum_congr rfl fun d hd => ?_)
    obtain ⟨e, he, he2⟩ := hw _ (kid_mem hk')
    rw [he]
    show e a d * _ = _
    rw [he2 a ha d (mem_range.1 hd)]
    rfl
  have hrun : innerNode P R st v = .ok st2 := by
    unfold innerNode
    rw [if_pos]
    swap
    · constructor
      · rw [List.all_eq_true]
        intro c hc
        rw [h.U c (hk c hc)]; rfl
      · rw [List.all_eq_true]
        intro k hk'
        rw [List.all_eq_true]
        intro l hl
        rw [List.mem_range'_1] at hl
        obtain ⟨e, he, _⟩ := hB k l (by omega) (by omega)
        have he' : lookB st (child R v k) (child R v l) = some ⟨(g.U (kid R v k)).ncol, (g.U (kid R v l)).ncol, e⟩ := he
        rw [he']; rfl
    rw [hm]
    dsimp only
    rw [← hev, if_neg (not_not.2 (hLq.evInfo _ _)), if_neg]
    swap
    · rw [List.any_eq_true]
      rintro ⟨k, hk1, hk2⟩
      have a1 := v1 k (List.mem_range.1 hk1)
      have a2 : ev.2.2 k ≤ -1 := by simpa using hk2
      linarith
    rw [y1]
    simp only [Res.bind_ok]
    rw [hy0]
    unfold need
    dsimp only
    rw [if_neg (not_not.2 rfl)]
    change (do
      let Y ← shiftY (fun y => ⟨V.ncol, y.ncol, mulTL V.nrow V.e (mulR (g.m R v) Mi y.e)⟩) (R.arr.maxLevel - 1) 1 0 (Y1 v)
      _) = _
    rw [c1]
    simp only [Res.bind_ok]
    by_cases hU : 0 < (R.U v).ncol
    · have hl := (low_iff hwf hlow hvn).1 hU
      have hu := hwf.uInner v hvn hl h0
      have hw := hwk hl
      rw [if_pos hU, hst2, if_pos hU, needAll_some (kids R.arr v) (g := fun c => deref (st.W c)) (fun c hc => by
        obtain ⟨e, he, _⟩ := hw c hc
        rw [he]; rfl)]
      simp only [Res.bind_ok]
      rw [if_pos, if_pos]
      · exact (hsW hl).1
      · rw [List.map_map, hu]
        have : ((kids R.arr v).map (Mat.ncol ∘ fun c => deref (st.W c))) = (kids R.arr v).map fun c => (R.U c).ncol := by
          refine List.map_congr_left fun c hc => ?_
          obtain ⟨e, he, _⟩ := hw c hc
          show (deref (st.W c)).ncol = _
          rw [he]; rfl
        rw [this, sum_kids]; rfl
    · rw [if_neg hU, hst2, if_neg hU]
  have f2 : ∀ {α : Type} (f : St → α), (∀ s w, f { s with W := w } = f s) → f st2 = f st1 := by
    intro α f hf
    rw [hst2]
    split
    · exact hf _ _
    · rfl
  have hfold : ∀ (L : List Nat) (w : Nat → Option (Mat ℝ)) (u : Nat), u ∉ L → L.foldl (fun w c => Function.update w c none) w u = w u := by
    intro L
    induction L with
    | nil => intro w u _; rfl
    | cons c L ih =>
      intro w u hu
      rw [List.mem_cons, not_or] at hu
      rw [List.foldl_cons, ih _ _ hu.2, Function.update_of_ne hu.1]
  obtain ⟨g', e1, e2⟩ := node_done (k := M) (ki := Mi) (V := V) (U := ⟨g.m R v, V.ncol, mulR (g.m R v) M V.e⟩) (st' := st2) hwf h hv hQ hk htop b1 b2 b3 ⟨_, rfl⟩ b4
    v2 v3 rfl rfl (fun i a => rfl) (f2 (fun s => s.U) fun _ _ => rfl) (f2 (fun s => s.V) fun _ _ => rfl)
    (fun u hu => by rw [f2 (fun s => s.S) fun _ _ => rfl])
    (fun u hu => by rw [f2 (fun s => s.Minv) fun _ _ => rfl]; exact Function.update_of_ne hu _ _)
    (fun hc => absurd hc h0)
    (fun _ => ⟨by rw [f2 (fun s => s.Minv) fun _ _ => rfl]; exact Function.update_self _ _ _, fun i j => by
      unfold Mi specM mulNT
      exact sum_congr rfl fun k _ => by ring⟩)
    (fun u hu hu2 => by
      rw [hst2]
      split
      · show (kids R.arr v).foldl (fun w c => Function.update w c none) (Function.update st1.W v (some Wv)) u = _
        rw [hfold _ _ _ hu2]
        exact Function.update_of_ne hu _ _
      · rfl)
    (fun hl => by
      have hU := (low_iff hwf hlow hvn).2 hl
      rw [hst2, if_pos hU]
      refine ⟨Wv.e, ?_, fun a ha t ht => ?_⟩
      · show (kids R.arr v).foldl (fun w c => Function.update w c none) (Function.update st1.W v (some Wv)) v = _
        rw [hfold _ _ _ hself]
        exact Function.update_self _ _ _
      show mulTL V.nrow V.e (mulR (g.m R v) Mi (stackW ws (R.U v)).2) a t = _
      unfold mulTL mulR
      rw [b1]
      have : ∀ s ∈ range (g.m R v), V.e s a * ∑ i ∈ range (g.m R v), Mi s i * (stackW ws (R.U v)).2 i t =
          ∑ i ∈ range (g.m R v), V.e s a * Mi s i * ∑ r ∈ range R.size, g.lo R v i r * W v r t := by
        intro s hs
        rw [mul_sum]
        refine sum_congr rfl fun i hi => ?_
        obtain ⟨k, hk', x, hx, rfl⟩ := find_m h0 (mem_range.1 hi)
        rw [(hsW hl).2 k hk' x hx t ht]; ring
      rw [sum_congr rfl this, sum_comm]
      exact sum_congr rfl fun i _ => by rw [sum_mul])
    (fun u hu hu2 => by
      rw [f2 (fun s => s.Y) fun _ _ => rfl]
      show (Function.update Y1 v (Function.update Y' (R.arr.level v - 1) none)) u = _
      rw [Function.update_of_ne hu, y4 u hu hu2])
    (fun l hl => by
      rw [f2 (fun s => s.Y) fun _ _ => rfl]
      show ∃ e, (Function.update Y1 v (Function.update Y' (R.arr.level v - 1) none)) v l = _ ∧ _
      rw [Function.update_self, Function.update_of_ne (by omega), c4 l hl]
      obtain ⟨e, he, hec⟩ := y2 (l + 1) hl
      rw [he]
      refine ⟨_, rfl, fun a ha j hj => ?_⟩
      show ∑ s ∈ range V.nrow, V.e s a * ∑ i ∈ range (g.m R v), Mi s i * e i j = _
      rw [b1]
      have : ∀ s ∈ range (g.m R v), V.e s a * ∑ i ∈ range (g.m R v), Mi s i * e i j =
          ∑ i ∈ range (g.m R v), V.e s a * Mi s i * ∑ r ∈ range R.size, g.lo R v i r * Ty (R.arr.level v - (l + 1)) r j := by
        intro s hs
        rw [mul_sum]
        refine sum_congr rfl fun i hi => ?_
        rw [hec i (mem_range.1 hi) j hj]; ring
      rw [sum_congr rfl this, sum_comm]
      exact sum_congr rfl fun i _ => by rw [sum_mul])
    hV
    (fun i hi j hj => by
      show ∑ s ∈ range (g.m R v), Mi i s * y0 s j = _
      refine sum_congr rfl fun s hs => ?_
      rw [hy0c s (mem_range.1 hs) j hj, Nat.sub_zero])
    (by rw [f2 (fun s => s.spd) fun _ _ => rfl]; exact h.spd)
  exact ⟨g', st2, hrun, e1, e2, f2 (fun s => s.B) fun _ _ => rfl, f2 (fun s => s.idx) fun _ _ => rfl⟩

end

end H2Pack.SPD
