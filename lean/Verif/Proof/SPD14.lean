import Verif.Proof.SPD13

set_option linter.unusedSectionVars false

/-! # SPDHSS: the levels -/

namespace H2Pack.SPD
open H2Pack.MV (Mat Rep WF kid off kid_mem Nested entry nested_zero Blk IsBlock side admEntry)
open H2Pack.ULV (InRow fsub mulTL mulR deref child kid_row_unique shifted blkMat leaf_surj loop)
open H2Pack.Part (Arr kids ClusterTree Pairs)
open Finset

section
variable {R : Rep ℝ} {W : Nat → Nat → Nat → ℝ} {nvec : Nat} {Ty : Nat → Nat → Nat → ℝ} {g : Gh} {st : St} {Q : Nat → Prop}
  {adm : Nat → Nat → Bool} {D : Nat × Nat → Prop} {pv : Pairs} {getB getD : Nat → Nat → Option (Blk ℝ)} {A : Nat → Nat → ℝ} {P : Params}

/-- A node is handled after all pairs in which it is compressed were left out. -/
theorem pair_congr (T : ClusterTree R.arr R.nPoint) {st' : St} {g' : Gh} {v : Nat} (h : PairInv R A adm g st D) (hD : ∀ x, D x → R.arr.level v < lvl R.arr x)
    (hg : ∀ u, u ≠ v → g'.U u = g.U u ∧ g'.L u = g.L u ∧ g'.X u = g.X u) (hB : st'.B = st.B) (hi : st'.idx = st.idx) : PairInv R A adm g' st' D := by
  have key : ∀ a b, (Vis R.arr adm a b ∨ Vis R.arr adm b a) → R.arr.level v < max (R.arr.level a) (R.arr.level b) →
      sd R g' a b = sd R g a b ∧ ∀ i, sL R g' a b i = sL R g a b i := by
    intro a b hx hl
    unfold sd sL
    by_cases hab : R.arr.level b ≤ R.arr.level a
    · have hne : a ≠ v := by rintro rfl; omega
      simp only [if_pos hab]
      exact ⟨by rw [(hg a hne).1], fun i => by rw [(hg a hne).2.1]⟩
    · have h0 : R.arr.nChild a = 0 := by
        rcases hx with h | h
        · exact (vis_level T h).1 (by omega)
        · exact (vis_level T h).2.1 (by omega)
      simp only [if_neg hab]
      exact ⟨by rw [m_leaf h0, m_leaf h0], fun i => by funext r; rw [lo_leaf h0, lo_leaf h0]⟩
  refine ⟨h.sub, fun a b => by rw [hi]; exact h.idx a b, fun a b h1 h2 => ?_⟩
  obtain ⟨m, m1, m2, m3, m4⟩ := h.val a b h1 h2
  have hv := h.sub _ h1
  have hl := hD _ h1
  obtain ⟨e1, e2⟩ := key a b (Or.inl hv) hl
  obtain ⟨e3, e4⟩ := key b a (Or.inr hv) (by rw [max_comm]; exact hl)
  refine ⟨m, by rw [hB]; exact m1, ?_⟩
  unfold Holds'
  rw [e1, e3]
  exact ⟨m2, m3, fun i hi j hj => by rw [e2, e4]; exact m4 i hi j hj⟩

theorem nonroot (T : ClusterTree R.arr R.nPoint) {v : Nat} (hv : v < R.arr.nNode) (hl : 1 ≤ R.arr.level v) : v + 1 < R.arr.nNode := by
  by_contra hcon
  have : v = R.arr.nNode - 1 := by omega
  rw [this, T.rootLevel] at hl
  omega

/-- The diagonal blocks. -/
theorem diag_ok (hs : Source R pv adm getB getD) (hW : Nested R W) {v : Nat} (hv : v < R.arr.nNode) (h0 : R.arr.nChild v = 0) (shift : ℝ) :
    diagOk getD v = true ∧ (diagD getD shift v).nrow = R.rowE v - R.rowS v ∧ (diagD getD shift v).ncol = R.rowE v - R.rowS v ∧
      ∀ i < R.rowE v - R.rowS v, ∀ j < R.rowE v - R.rowS v, (diagD getD shift v).e i j = shifted R W shift (R.rowS v + i) (R.rowS v + j) := by
  have hwf := hs.wf
  obtain ⟨k, hk, rfl⟩ := leaf_surj hwf hv h0
  obtain ⟨d, hd, he⟩ := hs.d0 k hk
  obtain ⟨w1, w2⟩ := hwf.d0 k hk
  refine ⟨?_, ?_, ?_, fun i hi j hj => ?_⟩
  · unfold diagOk; rw [hd]; simp [w1, w2]
  · unfold diagD; rw [hd]; exact w1
  · unfold diagD; rw [hd]; exact w2
  · unfold diagD
    rw [hd]
    dsimp only
    rw [he i (by rw [w1]; exact hi) j (by rw [w2]; exact hj)]
    have r1 : InRow R (R.leaf k) (R.rowS (R.leaf k) + i) := ⟨by omega, by omega⟩
    have r2 : InRow R (R.leaf k) (R.rowS (R.leaf k) + j) := ⟨by omega, by omega⟩
    unfold shifted
    rw [(entry_eq hwf hW hs.adm hs.inadm (src_cov hs) (row_lt hwf hv r1) (row_lt hwf hv r2)).1 k hk r1 r2]
    have e1 : R.rowS (R.leaf k) + i - R.rowS (R.leaf k) = i := by omega
    have e2 : R.rowS (R.leaf k) + j - R.rowS (R.leaf k) = j := by omega
    rw [e1, e2]
    congr 1
    by_cases h : i = j
    · rw [if_pos h, if_pos (by omega)]
    · rw [if_neg h, if_neg (by omega)]

/-- What has to hold for the whole construction. -/
structure Ctx (P : Params) (R : Rep ℝ) (W : Nat → Nat → Nat → ℝ) (nvec : Nat) (pv : Pairs) (adm : Nat → Nat → Bool) (getB getD : Nat → Nat → Option (Blk ℝ)) : Prop where
  src : Source R pv adm getB getD
  nested : Nested R W
  pd : PD R.size (shifted R W P.shift)
  lp : P.lp.Correct
  df : P.lp.Definite
  lq : P.lq.Correct
  rank : 0 < P.maxRank
  nvec : 0 < nvec

/-- The nodes of a level. -/
theorem nodes_step (C : Ctx P R W nvec pv adm getB getD) {l : Nat} (hl : 1 ≤ l) (hDl : ∀ x, D x → l < lvl R.arr x) (hDv : ∀ x : Nat × Nat, Vis R.arr adm x.1 x.2 → l < lvl R.arr x → D x) :
    ∀ (L : List Nat) (g : Gh) (st : St) (Q : Nat → Prop), NodeInv P R (shifted R W P.shift) W nvec Ty g st Q → PairInv R (shifted R W P.shift) adm g st D →
      L.Nodup → (∀ v ∈ L, v < R.arr.nNode ∧ R.arr.level v = l ∧ ¬ Q v) → (∀ v, Q v → l ≤ R.arr.level v) → (∀ v < R.arr.nNode, l < R.arr.level v → Q v) →
      ∃ g' st', loop (nodeStep P R (diagD getD P.shift)) L st = .ok st' ∧ NodeInv P R (shifted R W P.shift) W nvec Ty g' st' (fun u => Q u ∨ u ∈ L) ∧
        PairInv R (shifted R W P.shift) adm g' st' D := by
  intro L
  induction L with
  | nil =>
    intro g st Q hN hP _ _ _ _
    refine ⟨g, st, rfl, ?_, hP⟩
    have : (fun u => Q u ∨ u ∈ ([] : List Nat)) = Q := by funext u; simp
    rw [this]; exact hN
  | cons v L ih =>
    intro g st Q hN hP hnd hL hQ1 hQ2
    have hwf := C.src.wf
    have T := hwf.tree
    obtain ⟨hv, hvl, hvQ⟩ := hL v (List.mem_cons_self ..)
    have hv1 := nonroot T hv (by omega)
    have htop : Top R Q v := by
      intro p hp hc hq
      have := T.childLevel p hp v hc
      have := hQ1 p hq
      omega
    have hstep : ∃ g' st', nodeStep P R (diagD getD P.shift) st v = .ok st' ∧ (∀ u, u ≠ v → g'.U u = g.U u ∧ g'.L u = g.L u ∧ g'.X u = g.X u) ∧
        NodeInv P R (shifted R W P.shift) W nvec Ty g' st' (fun u => Q u ∨ u = v) ∧ st'.B = st.B ∧ st'.idx = st.idx := by
      unfold nodeStep
      rw [if_neg (by rw [hN.spd]; simp)]
      by_cases h0 : R.arr.nChild v = 0
      · rw [if_pos h0]
        obtain ⟨_, d1, d2, d3⟩ := diag_ok C.src C.nested hv h0 P.shift
        exact leaf_step hwf C.pd C.nested C.src.low C.lp C.df C.lq C.rank C.nvec hN hv1 hvQ htop h0 (by omega) d1 d2 d3
      · rw [if_neg h0]
        have hk : ∀ c ∈ kids R.arr v, Q c := fun c hc => hQ2 c (by have := T.childLt v hv c hc; omega) (by have := T.childLevel v hv c hc; omega)
        refine inner_step hwf C.pd C.nested C.src.low C.lq C.rank C.nvec hN hv1 hvQ hk htop h0 (by omega) fun k j hkj hj => ?_
        have hvis : Vis R.arr adm (kid R v k) (kid R v j) := Vis.sib hv hkj hj
        have lk := T.childLevel v hv _ (kid_mem (R := R) (show k < R.arr.nChild v by omega))
        have lj := T.childLevel v hv _ (kid_mem (R := R) hj)
        have hlv : lvl R.arr (kid R v k, kid R v j) = R.arr.level v + 1 := by unfold lvl; dsimp only; rw [lk, lj, max_self]
        have hD := hDv (kid R v k, kid R v j) hvis (by omega)
        have hpar : ¬ D (par R.arr (kid R v k, kid R v j)) := by
          intro hp
          have e : par R.arr (kid R v k, kid R v j) = (v, v) := by
            unfold par raise
            dsimp only
            rw [hlv]
            simp only [Nat.add_sub_cancel]
            rw [if_pos lk, if_pos lj, parent_nat T hv (kid_mem (R := R) (show k < R.arr.nChild v by omega)), parent_nat T hv (kid_mem (R := R) hj)]
          rw [e] at hp
          exact vis_ne T (hP.sub _ hp) rfl
        obtain ⟨m, m1, m2, m3, m4⟩ := hP.val _ _ hD hpar
        have s1 : sd R g (kid R v k) (kid R v j) = (g.U (kid R v k)).ncol := if_pos (by omega)
        have s2 : sd R g (kid R v j) (kid R v k) = (g.U (kid R v j)).ncol := if_pos (by omega)
        have s3 : ∀ i, sL R g (kid R v k) (kid R v j) i = g.L (kid R v k) i := fun i => if_pos (by omega)
        have s4 : ∀ i, sL R g (kid R v j) (kid R v k) i = g.L (kid R v j) i := fun i => if_pos (by omega)
        refine ⟨m.e, ?_, fun a ha b hb => ?_⟩
        · unfold lookB
          rw [if_pos ((hP.idx _ _).2 ⟨hvis, hpar⟩), m1, ← s1, ← s2, ← m2, ← m3]
        · rw [m4 a (by rw [s1]; exact ha) b (by rw [s2]; exact hb), s3, s4]
    obtain ⟨g1, st1, e1, e2, e3, e4, e5⟩ := hstep
    have hP1 := pair_congr T hP (fun x hx => by rw [hvl]; exact hDl x hx) e2 e4 e5
    obtain ⟨g2, st2, f1, f2, f3⟩ := ih g1 st1 _ e3 hP1 (List.nodup_cons.1 hnd).2
      (fun u hu => by
        obtain ⟨a1, a2, a3⟩ := hL u (List.mem_cons_of_mem _ hu)
        refine ⟨a1, a2, fun hc => hc.elim a3 fun e => ?_⟩
        subst e
        exact (List.nodup_cons.1 hnd).1 hu)
      (fun u hu => hu.elim (hQ1 u) fun e => by rw [e, hvl])
      (fun u h1 h2 => Or.inl (hQ2 u h1 h2))
    refine ⟨g2, st2, ?_, ?_, f3⟩
    · show (nodeStep P R (diagD getD P.shift) st v >>= fun s => loop _ L s) = _
      rw [e1]; exact f1
    · have : (fun u => Q u ∨ u ∈ v :: L) = fun u => (Q u ∨ u = v) ∨ u ∈ L := by
        funext u; rw [List.mem_cons, or_assoc]
      rw [this]; exact f2

/-- The pairs of a level. -/
theorem pairs_step (C : Ctx P R W nvec pv adm getB getD) {l : Nat} (hl : 1 ≤ l) {g : Gh} (hQ : ∀ v, Q v ↔ v < R.arr.nNode ∧ l ≤ R.arr.level v) :
    ∀ (L : List (Nat × Nat)) (st : St) (D : Nat × Nat → Prop), NodeInv P R (shifted R W P.shift) W nvec Ty g st Q → PairInv R (shifted R W P.shift) adm g st D →
      L.Nodup → (∀ x ∈ L, Vis R.arr adm x.1 x.2 ∧ lvl R.arr x = l ∧ ¬ D x) → (∀ x, D x → l ≤ lvl R.arr x) →
      (∀ x : Nat × Nat, Vis R.arr adm x.1 x.2 → l < lvl R.arr x → D x) →
      ∃ st', loop (calcB R adm getB getD) L st = .ok st' ∧ NodeInv P R (shifted R W P.shift) W nvec Ty g st' Q ∧
        PairInv R (shifted R W P.shift) adm g st' (fun x => D x ∨ x ∈ L) := by
  intro L
  induction L with
  | nil =>
    intro st D hN hP _ _ _ _
    refine ⟨st, rfl, hN, ?_⟩
    have : (fun u => D u ∨ u ∈ ([] : List (Nat × Nat))) = D := by funext u; simp
    rw [this]; exact hP
  | cons x L ih =>
    intro st D hN hP hnd hL hD1 hD2
    have hwf := C.src.wf
    have T := hwf.tree
    obtain ⟨a, b⟩ := x
    obtain ⟨hx, hlv, hD⟩ := hL (a, b) (List.mem_cons_self ..)
    dsimp only at hx
    have hlt := vis_lt T hx
    have hmax : max (R.arr.level a) (R.arr.level b) = l := hlv
    have hQT : ∀ u < R.arr.nNode, R.arr.level u = l → Q u ∧ Top R Q u := by
      intro u hu hul
      refine ⟨(hQ u).2 ⟨hu, by omega⟩, fun p hp hc hq => ?_⟩
      have := T.childLevel p hp u hc
      have := ((hQ p).1 hq).2
      omega
    obtain ⟨B, idx, e1, e2⟩ := calc_step (st := st) C.src C.nested hN hP hx hD
      (fun hp => by
        have hpv := hP.sub _ hp
        have h1 := (par_iff T hpv hx).1 rfl
        have h2 := below T hpv h1.1 h1.2.1 h1.2.2.1 h1.2.2.2
        have h3 := hD1 _ hp
        have h4 : lvl R.arr (a, b) = lvl R.arr (par R.arr (a, b)) + 1 := h2.2.1
        omega)
      (fun h1 h2 c hc d hd => by
        have h3 := below T hx h1 h2 hc hd
        exact hD2 _ h3.1 (by omega))
      (fun h => hQT a hlt.1 (by omega)) (fun h => hQT b hlt.2 (by omega))
    have hN' : NodeInv P R (shifted R W P.shift) W nvec Ty g { st with B := B, idx := idx } Q :=
      ⟨hN.node, hN.down, hN.ok, hN.U, hN.comp, hN.W, hN.yLeaf, hN.yRest, hN.yDone, hN.rank, hN.cap, hN.spd⟩
    obtain ⟨st2, f1, f2, f3⟩ := ih _ _ hN' e2 (List.nodup_cons.1 hnd).2
      (fun u hu => by
        obtain ⟨a1, a2, a3⟩ := hL u (List.mem_cons_of_mem _ hu)
        refine ⟨a1, a2, fun hc => hc.elim a3 fun e => ?_⟩
        subst e
        exact (List.nodup_cons.1 hnd).1 hu)
      (fun u hu => hu.elim (hD1 u) fun e => by rw [e, hlv])
      (fun u h1 h2 => Or.inl (hD2 u h1 h2))
    refine ⟨st2, ?_, f2, ?_⟩
    · show (calcB R adm getB getD st (a, b) >>= fun s => loop _ L s) = _
      rw [e1]; exact f1
    · have : (fun u => D u ∨ u ∈ (a, b) :: L) = fun u => (D u ∨ u = (a, b)) ∨ u ∈ L := by
        funext u; rw [List.mem_cons, or_assoc]
      rw [this]; exact f3

/-- All levels. -/
theorem levels_step (C : Ctx P R W nvec pv adm getB getD) {ord : Nat → List Nat} {pord : Nat → List (Nat × Nat)} (hord : ∀ l, (ord l).Perm (R.levelList l))
    (hpn : ∀ l, 1 ≤ l → l ≤ R.arr.maxLevel → (pord l).Nodup ∧ ∀ x, x ∈ pord l ↔ Vis R.arr adm x.1 x.2 ∧ lvl R.arr x = l) :
    ∀ (n : Nat), n ≤ R.arr.maxLevel → ∀ (g : Gh) (st : St), NodeInv P R (shifted R W P.shift) W nvec Ty g st (fun v => v < R.arr.nNode ∧ n < R.arr.level v) →
      PairInv R (shifted R W P.shift) adm g st (fun x => Vis R.arr adm x.1 x.2 ∧ n < lvl R.arr x) →
      ∃ g' st', loop (levelStep P R adm getB getD (diagD getD P.shift) ord pord) ((List.range n).reverse.map (· + 1)) st = .ok st' ∧
        NodeInv P R (shifted R W P.shift) W nvec Ty g' st' (fun v => v < R.arr.nNode ∧ 0 < R.arr.level v) ∧
        PairInv R (shifted R W P.shift) adm g' st' (fun x => Vis R.arr adm x.1 x.2 ∧ 0 < lvl R.arr x) := by
  intro n
  induction n with
  | zero => intro _ g st h1 h2; exact ⟨g, st, rfl, h1, h2⟩
  | succ n ih =>
    intro hn g st hN hP
    have T := C.src.wf.tree
    have hmem : ∀ v, v ∈ ord (n + 1) ↔ v < R.arr.nNode ∧ R.arr.level v = n + 1 := by
      intro v
      rw [(hord (n + 1)).mem_iff]
      unfold Rep.levelList
      rw [T.levelList, List.mem_filter, List.mem_range, decide_eq_true_eq]
    have hnd : (ord (n + 1)).Nodup := by
      rw [(hord (n + 1)).nodup_iff]
      unfold Rep.levelList
      rw [T.levelList]
      exact List.nodup_range.filter _
    obtain ⟨g1, st1, a1, a2, a3⟩ := nodes_step C (l := n + 1) (by omega) (fun x hx => hx.2) (fun x h1 h2 => ⟨h1, h2⟩) (ord (n + 1)) g st _ hN hP hnd
      (fun v hv => by
        have := (hmem v).1 hv
        exact ⟨this.1, this.2, fun hc => by omega⟩)
      (fun v hv => by omega) (fun v h1 h2 => ⟨h1, h2⟩)
    obtain ⟨p1, p2⟩ := hpn (n + 1) (by omega) hn
    obtain ⟨st2, b1, b2, b3⟩ := pairs_step C (l := n + 1) (by omega)
      (Q := fun u => (u < R.arr.nNode ∧ n + 1 < R.arr.level u) ∨ u ∈ ord (n + 1))
      (fun v => by
        rw [hmem]
        constructor
        · rintro (⟨h1, h2⟩ | ⟨h1, h2⟩)
          · exact ⟨h1, by omega⟩
          · exact ⟨h1, by omega⟩
        · rintro ⟨h1, h2⟩
          by_cases h : R.arr.level v = n + 1
          · exact Or.inr ⟨h1, h⟩
          · exact Or.inl ⟨h1, by omega⟩) (pord (n + 1)) st1 _ a2 a3 p1
      (fun x hx => by
        have := (p2 x).1 hx
        exact ⟨this.1, this.2, fun hc => by omega⟩)
      (fun x hx => by omega) (fun x h1 h2 => ⟨h1, h2⟩)
    have eQ : (fun u => (u < R.arr.nNode ∧ n + 1 < R.arr.level u) ∨ u ∈ ord (n + 1)) = fun v => v < R.arr.nNode ∧ n < R.arr.level v := by
      funext v
      rw [hmem]
      apply propext
      constructor
      · rintro (⟨h1, h2⟩ | ⟨h1, h2⟩)
        · exact ⟨h1, by omega⟩
        · exact ⟨h1, by omega⟩
      · rintro ⟨h1, h2⟩
        by_cases h : R.arr.level v = n + 1
        · exact Or.inr ⟨h1, h⟩
        · exact Or.inl ⟨h1, by omega⟩
    have eD : (fun x : Nat × Nat => (Vis R.arr adm x.1 x.2 ∧ n + 1 < lvl R.arr x) ∨ x ∈ pord (n + 1)) = fun x => Vis R.arr adm x.1 x.2 ∧ n < lvl R.arr x := by
      funext v
      rw [p2]
      apply propext
      constructor
      · rintro (⟨h1, h2⟩ | ⟨h1, h2⟩)
        · exact ⟨h1, by omega⟩
        · exact ⟨h1, by omega⟩
      · rintro ⟨h1, h2⟩
        by_cases h : lvl R.arr v = n + 1
        · exact Or.inr ⟨h1, h⟩
        · exact Or.inl ⟨h1, by omega⟩
    rw [eQ] at b2
    rw [eD] at b3
    obtain ⟨g3, st3, c1, c2, c3⟩ := ih (by omega) g1 st2 b2 b3
    refine ⟨g3, st3, ?_, c2, c3⟩
    rw [List.range_succ, List.reverse_append, List.reverse_singleton, List.map_append]
    show (levelStep P R adm getB getD (diagD getD P.shift) ord pord st (n + 1) >>= fun s => loop _ _ s) = _
    have : levelStep P R adm getB getD (diagD getD P.shift) ord pord st (n + 1) = .ok st2 := by
      unfold levelStep
      rw [if_neg (by rw [hN.spd]; simp)]
      show (loop (nodeStep P R (diagD getD P.shift)) (ord (n + 1)) st >>= fun s => loop _ _ s) = _
      rw [a1]; exact b1
    rw [this]
    exact c1

end

end H2Pack.SPD
