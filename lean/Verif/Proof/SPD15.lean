import Verif.Proof.SPD14
import Verif.Proof.SPD6

set_option linter.unusedSectionVars false

/-! # SPDHSS: the whole construction -/

namespace H2Pack.SPD
open H2Pack.MV (Mat Rep WF kid off kid_mem Nested entry nested_zero Blk IsBlock side admEntry)
open H2Pack.ULV (InRow fsub mulTL mulR deref child kid_row_unique shifted blkMat leaf_surj loop HSS)
open H2Pack.Part (Arr kids ClusterTree Pairs)
open Finset

section
variable {R : Rep ℝ} {W : Nat → Nat → Nat → ℝ} {nvec : Nat} {adm : Nat → Nat → Bool} {pv hss : Pairs} {mark : Nat → Nat}
  {getB getD : Nat → Nat → Option (Blk ℝ)} {P : Params}

theorem kid_of (hwf : WF R) (hs : HssPairs R hss mark) {a b : Nat} (h : (a, b) ∈ hss.adm) :
    Vis R.arr adm a b ∧ R.arr.level a = R.arr.level b ∧ 1 ≤ R.arr.level a ∧ par R.arr (a, b) = (par R.arr (a, b)).swap := by
  have T := hwf.tree
  obtain ⟨v, hv, k, l, hkl, hl, rfl, rfl⟩ := (hs.pairs a b).1 h
  have lk := T.childLevel v hv _ (kid_mem (R := R) (show k < R.arr.nChild v by omega))
  have lj := T.childLevel v hv _ (kid_mem (R := R) hl)
  refine ⟨Vis.sib hv hkl hl, by omega, by omega, ?_⟩
  have hlv : lvl R.arr (kid R v k, kid R v l) = R.arr.level v + 1 := by unfold lvl; dsimp only; rw [lk, lj, max_self]
  unfold par raise
  dsimp only
  rw [hlv]
  simp only [Nat.add_sub_cancel]
  rw [if_pos lk, if_pos lj, parent_nat T hv (kid_mem (R := R) (show k < R.arr.nChild v by omega)), parent_nat T hv (kid_mem (R := R) hl)]
  rfl

/-- The samples of the leaves, by level, row and column. -/
def Content (R : Rep ℝ) (nvec : Nat) (Y : Nat → Nat → Option (Mat ℝ)) (Ty : Nat → Nat → Nat → ℝ) : Prop :=
  ∀ v < R.arr.nNode, R.arr.nChild v = 0 → ∀ l < R.arr.level v, ∃ e, Y v l = some ⟨R.rowE v - R.rowS v, nvec, e⟩ ∧
    ∀ i < R.rowE v - R.rowS v, ∀ j < nvec, e i j = Ty (R.arr.level v - l) (R.rowS v + i) j

/-- Samples of the right sizes have some contents. -/
theorem content_exists (hwf : WF R) {Y : Nat → Nat → Option (Mat ℝ)} (hY : Sampled R nvec Y) : ∃ Ty, Content R nvec Y Ty := by
  classical
  refine ⟨fun s r j => if h : ∃ v, v < R.arr.nNode ∧ R.arr.nChild v = 0 ∧ InRow R v r then
    (deref (Y h.choose (R.arr.level h.choose - s))).e (r - R.rowS h.choose) j else 0, fun v hv h0 l hl => ?_⟩
  obtain ⟨e, he⟩ := hY.leaf v hv h0 l hl
  refine ⟨e, he, fun i hi j hj => ?_⟩
  have hin : InRow R v (R.rowS v + i) := ⟨by omega, by omega⟩
  have hex : ∃ v, v < R.arr.nNode ∧ R.arr.nChild v = 0 ∧ InRow R v (R.rowS v + i) := ⟨v, hv, h0, hin⟩
  have hex' : ∃ w, w < R.arr.nNode ∧ R.arr.nChild w = 0 ∧ InRow R w (R.rowS v + i) := ⟨v, hv, h0, hin⟩
  have huniq : hex'.choose = v := by
    obtain ⟨c1, c2, c3⟩ := hex'.choose_spec
    rcases H2Pack.ULV.comparable hwf c1 hv c3 hin with d | d
    · exact (H2Pack.ULV.leaf_desc d h0)
    · exact (H2Pack.ULV.leaf_desc d c2).symm
  beta_reduce
  rw [dif_pos hex', huniq, show R.arr.level v - (R.arr.level v - l) = l by omega, he, Nat.add_sub_cancel_left]
  rfl

/-- The construction ends, with the flag set, in an HSS matrix that consists of the blocks of the construction. -/
theorem build_cap (C : Ctx P R W nvec pv adm getB getD) (hh : HssPairs R hss mark) {Y : Nat → Nat → Option (Mat ℝ)} (hY : Sampled R nvec Y)
    {Ty : Nat → Nat → Nat → ℝ} (hTy : Content R nvec Y Ty)
    {ord : Nat → List Nat} (hord : ∀ l, (ord l).Perm (R.levelList l)) {pord : Nat → List (Nat × Nat)}
    (hpn : ∀ l, 1 ≤ l → l ≤ R.arr.maxLevel → ∃ L, Returns (fun fuel => levelPairs R.arr pv fuel (R.arr.maxLevel - l)) L ∧ (pord l).Perm L) :
    ∃ H g, Returns (build P R pv hss mark adm getB getD ord pord Y) (H, true) ∧ Built R (shifted R W P.shift) g H ∧
      H.coordIdx = R.coordIdx ∧ H.mark = mark ∧ H.adm = hss.adm ∧
      (∀ v, v + 1 < R.arr.nNode → ∃ d, (g.U v).ncol = vCols P.reltol (min (min (g.m R v) nvec) P.maxRank) d) ∧
      ∀ v, v + 1 < R.arr.nNode → Cap P R Ty nvec g v := by
  have hs := C.src
  have hwf := hs.wf
  have T := hwf.tree
  obtain ⟨all, hall, _, hmem⟩ := allPairs_spec T hs.small hs.found
  have hpn' : ∀ l, 1 ≤ l → l ≤ R.arr.maxLevel → (pord l).Nodup ∧ ∀ x, x ∈ pord l ↔ Vis R.arr adm x.1 x.2 ∧ lvl R.arr x = l := by
    intro l h1 h2
    obtain ⟨L, hL1, hL2⟩ := hpn l h1 h2
    obtain ⟨L', hL1', hL2', hL3'⟩ := levelPairs_spec T hs.small hs.found (R.arr.maxLevel - l) (by omega)
    have : L = L' := by
      obtain ⟨F, hF⟩ := hL1
      obtain ⟨F', hF'⟩ := hL1'
      have e1 := hF (max F F') (le_max_left _ _)
      have e2 := hF' (max F F') (le_max_right _ _)
      have := e1.symm.trans e2
      injection this
    subst this
    refine ⟨hL2.nodup_iff.2 hL2', fun x => ?_⟩
    rw [hL2.mem_iff, hL3']
    have : R.arr.maxLevel - (R.arr.maxLevel - l) = l := by omega
    rw [this]
  have hvl : ∀ x : Nat × Nat, Vis R.arr adm x.1 x.2 → lvl R.arr x ≤ R.arr.maxLevel := by
    intro x hx
    have := vis_lt T hx
    unfold lvl
    have h1 := T.levelLe x.1 this.1
    have h2 := T.levelLe x.2 this.2
    omega
  have hN0 : NodeInv P R (shifted R W P.shift) W nvec Ty ⟨fun _ => ⟨0, 0, fun _ _ => 0⟩, fun _ _ _ => 0, fun _ _ _ => 0⟩ (St.init all Y)
      (fun v => v < R.arr.nNode ∧ R.arr.maxLevel < R.arr.level v) := by
    have hno : ∀ v, ¬ (v < R.arr.nNode ∧ R.arr.maxLevel < R.arr.level v) := by
      rintro v ⟨h1, h2⟩
      have := T.levelLe v h1
      omega
    exact ⟨fun v h => absurd h (hno v), fun v h => absurd h (hno v), fun v h => absurd h (hno v), fun v h => absurd h (hno v), fun v h => absurd h (hno v),
      fun v h => absurd h (hno v), fun v hv _ h0 l hl => hTy v hv h0 l hl, fun v hv _ l hl h0 => hY.rest v hv l hl h0, fun v h => absurd h (hno v), fun v h => absurd h (hno v), fun v h => absurd h (hno v), rfl⟩
  have hP0 : PairInv R (shifted R W P.shift) adm ⟨fun _ => ⟨0, 0, fun _ _ => 0⟩, fun _ _ _ => 0, fun _ _ _ => 0⟩ (St.init all Y)
      (fun x => Vis R.arr adm x.1 x.2 ∧ R.arr.maxLevel < lvl R.arr x) := by
    have hno : ∀ x : Nat × Nat, ¬ (Vis R.arr adm x.1 x.2 ∧ R.arr.maxLevel < lvl R.arr x) := by
      rintro x ⟨h1, h2⟩
      have := hvl x h1
      omega
    refine ⟨fun x h => h.1, fun a b => ?_, fun a b h => absurd h (hno _)⟩
    show decide ((a, b) ∈ all) = true ↔ _
    rw [decide_eq_true_eq, hmem]
    exact ⟨fun h => ⟨h, hno _⟩, fun h => h.1⟩
  obtain ⟨g, st, e1, hN, hP⟩ := levels_step C hord hpn' R.arr.maxLevel (le_refl _) _ _ hN0 hP0
  have hQ : ∀ v, v + 1 < R.arr.nNode → v < R.arr.nNode ∧ 0 < R.arr.level v := fun v hv => ⟨by omega, by have := H2Pack.Part.level_pos T hv; omega⟩
  have hU : ∀ v, v + 1 < R.arr.nNode → deref (st.U v) = g.U v := fun v hv => by rw [hN.U v (hQ v hv)]; rfl
  have hlook : ∀ a b, (a, b) ∈ hss.adm → ∃ m, lookB st a b = some m ∧ m.nrow = (g.U a).ncol ∧ m.ncol = (g.U b).ncol ∧
      ∀ i < (g.U a).ncol, ∀ j < (g.U b).ncol, m.e i j = bil R.size (shifted R W P.shift) (g.L a i) (g.L b j) := by
    intro a b hab
    obtain ⟨hv, hl, h1, hp⟩ := kid_of (adm := adm) hwf hh hab
    have hpar : ¬ (Vis R.arr adm (par R.arr (a, b)).1 (par R.arr (a, b)).2 ∧ 0 < lvl R.arr (par R.arr (a, b))) := by
      rintro ⟨h, _⟩
      apply vis_ne T h
      have := congrArg Prod.fst hp
      exact this
    have hD : Vis R.arr adm a b ∧ 0 < lvl R.arr (a, b) := ⟨hv, by unfold lvl; dsimp only; omega⟩
    obtain ⟨m, m1, m2, m3, m4⟩ := hP.val a b hD hpar
    have s1 : sd R g a b = (g.U a).ncol := if_pos (by omega)
    have s2 : sd R g b a = (g.U b).ncol := if_pos (by omega)
    refine ⟨m, ?_, m2.trans s1, m3.trans s2, fun i hi j hj => ?_⟩
    · unfold lookB
      rw [if_pos ((hP.idx a b).2 ⟨hv, hpar⟩), m1]
    · rw [m4 i (by rw [s1]; exact hi) j (by rw [s2]; exact hj)]
      unfold sL
      rw [if_pos (by omega), if_pos (by omega)]
  let H : Rep ℝ := { arr := R.arr, nPoint := R.nPoint, kdim := R.kdim, coordIdx := R.coordIdx
                     U := fun v => deref (st.U v)
                     adm := hss.adm, inadm := hss.inadm
                     B := fun i => deref (lookB st (hss.adm.getD i (0, 0)).1 (hss.adm.getD i (0, 0)).2)
                     D := fun i => diagD getD P.shift (R.leaf i)
                     minAdm := hss.minAdm, mark := mark }
  have hwrap : wrap R hss mark (diagD getD P.shift) st = .ok H := by
    unfold wrap
    rw [if_pos]
    rw [List.all_eq_true]
    rintro ⟨a, b⟩ hab
    obtain ⟨m, hm, _⟩ := hlook a b hab
    rw [hm]; rfl
  have hleaf : ∀ i < R.arr.nLeaf, R.leaf i < R.arr.nNode ∧ R.arr.nChild (R.leaf i) = 0 := by
    intro i hi
    have hm : R.arr.heightNodes i ∈ (List.range R.arr.nLeaf).map R.arr.heightNodes := List.mem_map.2 ⟨i, List.mem_range.2 hi, rfl⟩
    rw [H2Pack.MV.leaf_list T] at hm
    unfold H2Pack.Part.leaves at hm
    rw [List.mem_filter, List.mem_range] at hm
    exact ⟨hm.1, of_decide_eq_true hm.2⟩
  have hok : (List.range R.arr.nLeaf).all (fun i => diagOk getD (R.leaf i)) = true := by
    rw [List.all_eq_true]
    intro i hi
    obtain ⟨h1, h2⟩ := hleaf i (List.mem_range.1 hi)
    exact (diag_ok hs C.nested h1 h2 P.shift).1
  have hret : Returns (build P R pv hss mark adm getB getD ord pord Y) (H, true) := by
    obtain ⟨F, hF⟩ := hall
    refine ⟨F, fun fuel hf => ?_⟩
    have e0 := hF fuel hf
    unfold build
    dsimp only at e0
    rw [e0]
    show (if _ then _ else _) = _
    rw [if_pos hok]
    show (loop (levelStep P R adm getB getD (diagD getD P.shift) ord pord) ((List.range R.arr.maxLevel).reverse.map (· + 1)) (St.init all Y) >>= _) = _
    rw [e1]
    show (wrap R hss mark (diagD getD P.shift) st >>= _) = _
    rw [hwrap]
    show Res.ok (H, st.spd) = _
    rw [hN.spd]
  have hkn : ∀ {v c : Nat}, v < R.arr.nNode → c ∈ kids R.arr v → c + 1 < R.arr.nNode := fun hv hc => kid_nonroot hwf hv hc
  have hlv1 : ∀ {v : Nat}, v < R.arr.nNode → 1 ≤ R.arr.level v → v + 1 < R.arr.nNode := fun hv h => nonroot T hv h
  have hoff : ∀ v < R.arr.nNode, ∀ k ≤ R.arr.nChild v, off H v k = off (g.rep R) v k := by
    intro v hv k hk
    unfold off
    refine sum_congr rfl fun j hj => ?_
    rw [mem_range] at hj
    show (deref (st.U (kid R v j))).ncol = (g.U (kid R v j)).ncol
    rw [hU _ (hkn hv (kid_mem (by omega)))]
  have hB : ∀ i (h : i < hss.adm.length), ∃ m, H.B i = m ∧ m.nrow = (g.U hss.adm[i].1).ncol ∧ m.ncol = (g.U hss.adm[i].2).ncol ∧
      ∀ a < (g.U hss.adm[i].1).ncol, ∀ b < (g.U hss.adm[i].2).ncol, m.e a b = bil R.size (shifted R W P.shift) (g.L hss.adm[i].1 a) (g.L hss.adm[i].2 b) := by
    intro i hi
    obtain ⟨m, m1, m2⟩ := hlook hss.adm[i].1 hss.adm[i].2 (List.getElem_mem hi)
    refine ⟨m, ?_, m2⟩
    show deref (lookB st (hss.adm.getD i (0, 0)).1 (hss.adm.getD i (0, 0)).2) = m
    have : hss.adm.getD i (0, 0) = hss.adm[i] := by simp [List.getD, hi]
    rw [this, m1]; rfl
  have hpair : ∀ x ∈ hss.adm, R.arr.level x.1 = R.arr.level x.2 ∧ 1 ≤ R.arr.level x.1 ∧ x.1 + 1 < R.arr.nNode ∧ x.2 + 1 < R.arr.nNode := by
    rintro ⟨a, b⟩ hx
    obtain ⟨h1, h2, h3, _⟩ := kid_of (adm := adm) hwf hh hx
    have := vis_lt T h1
    exact ⟨h2, h3, hlv1 this.1 h3, hlv1 this.2 (h2 ▸ h3)⟩
  have hWF : WF H := by
    refine { tree := T, kdim := hwf.kdim, perm := hwf.perm, rank := ?_, uLeaf := ?_, uInner := ?_, admNode := ?_, admLevel := ?_, marked := ?_, bRow := ?_, bCol := ?_, inadmNode := ?_, d0 := ?_, d1 := ?_ }
    · intro v hv hl
      have h1 := hlv1 hv (by rw [← hh.min]; exact hl)
      show 0 < (deref (st.U v)).ncol
      rw [hU v h1]; exact (hN.ok v (hQ v h1)).pos
    · intro v hv hl h0
      have h1 := hlv1 hv (by rw [← hh.min]; exact hl)
      show (deref (st.U v)).nrow = _
      rw [hU v h1, (hN.ok v (hQ v h1)).rows]; exact m_leaf h0
    · intro v hv hl h0
      have h1 := hlv1 hv (by rw [← hh.min]; exact hl)
      show (deref (st.U v)).nrow = off H v (R.arr.nChild v)
      rw [hU v h1, (hN.ok v (hQ v h1)).rows, hoff v hv _ (le_refl _)]; exact m_inner h0
    · intro x hx
      obtain ⟨_, _, h3, h4⟩ := hpair x hx
      exact ⟨show x.1 < R.arr.nNode by omega, show x.2 < R.arr.nNode by omega⟩
    · intro x hx
      obtain ⟨_, h2, _, _⟩ := hpair x hx
      show hss.minAdm ≤ max (R.arr.level x.1) (R.arr.level x.2)
      rw [hh.min]; omega
    · intro x hx
      have := hh.marked x hx
      exact ⟨fun _ => this.1, fun _ => this.2⟩
    · intro i hi
      obtain ⟨m, m1, m2, m3, _⟩ := hB i hi
      obtain ⟨h1, _, h3, _⟩ := hpair _ (List.getElem_mem hi)
      rw [m1, m2]
      show _ = if R.arr.level hss.adm[i].2 ≤ R.arr.level hss.adm[i].1 then (deref (st.U hss.adm[i].1)).ncol else _
      rw [if_pos (le_of_eq h1.symm), hU _ h3]
    · intro i hi
      obtain ⟨m, m1, m2, m3, _⟩ := hB i hi
      obtain ⟨h1, _, _, h3⟩ := hpair _ (List.getElem_mem hi)
      rw [m1, m3]
      show _ = if R.arr.level hss.adm[i].1 ≤ R.arr.level hss.adm[i].2 then (deref (st.U hss.adm[i].2)).ncol else _
      rw [if_pos (le_of_eq h1), hU _ h3]
    · intro x hx
      have hx' : x ∈ hss.inadm := hx
      rw [hh.inadm] at hx'
      simp at hx'
    · intro i hi
      obtain ⟨h1, h2⟩ := hleaf i hi
      obtain ⟨_, d1, d2, _⟩ := diag_ok hs C.nested h1 h2 P.shift
      exact ⟨d1, d2⟩
    · intro i hi
      have hx' : i < hss.inadm.length := hi
      rw [hh.inadm] at hx'
      simp at hx'
  refine ⟨H, g, hret, ⟨rfl, rfl, rfl, ⟨hWF, hh.min, hs.root, hh.inadm, hh.nodup, hh.pairs, ?_⟩, hwf, fun v hv => hN.ok v (hQ v hv), fun v hv => hU v hv, ?_, ?_⟩, rfl, rfl, rfl, fun v hv => hN.rank v (hQ v hv), fun v hv => hN.cap v (hQ v hv)⟩
  · intro v hv hl
    show (deref (st.U v)).ncol ≤ (deref (st.U v)).nrow
    rw [hU v (hlv1 hv hl)]; exact (hN.ok v (hQ v (hlv1 hv hl))).tall
  · intro i hi a ha b hb
    obtain ⟨h1, h2⟩ := hleaf i hi
    exact (diag_ok hs C.nested h1 h2 P.shift).2.2.2 a ha b hb
  · intro v hv k l hkl hl i hi he a ha b hb
    obtain ⟨m, m1, _, _, m2⟩ := hB i hi
    have he' : hss.adm[i] = (kid R v k, kid R v l) := he
    rw [he'] at m2
    rw [m1]
    exact m2 a ha b hb

theorem build_ok (C : Ctx P R W nvec pv adm getB getD) (hh : HssPairs R hss mark) {Y : Nat → Nat → Option (Mat ℝ)} (hY : Sampled R nvec Y)
    {ord : Nat → List Nat} (hord : ∀ l, (ord l).Perm (R.levelList l)) {pord : Nat → List (Nat × Nat)}
    (hpn : ∀ l, 1 ≤ l → l ≤ R.arr.maxLevel → ∃ L, Returns (fun fuel => levelPairs R.arr pv fuel (R.arr.maxLevel - l)) L ∧ (pord l).Perm L) :
    ∃ H g, Returns (build P R pv hss mark adm getB getD ord pord Y) (H, true) ∧ Built R (shifted R W P.shift) g H ∧
      H.coordIdx = R.coordIdx ∧ H.mark = mark ∧ H.adm = hss.adm ∧
      ∀ v, v + 1 < R.arr.nNode → ∃ d, (g.U v).ncol = vCols P.reltol (min (min (g.m R v) nvec) P.maxRank) d := by
  obtain ⟨Ty, hTy⟩ := content_exists C.src.wf hY
  obtain ⟨H, g, a, b, c, d, e, f, _⟩ := build_cap C hh hY hTy hord hpn
  exact ⟨H, g, a, b, c, d, e, f⟩

end

end H2Pack.SPD
