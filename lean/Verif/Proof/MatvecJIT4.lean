import Verif.Proof.MatvecJIT3

/-! # The JIT matvec computes the same as the matvec with stored kernel blocks (continued) -/

set_option linter.unusedSectionVars false

namespace H2Pack.MV
open H2Pack.Part (Arr kids ClusterTree)
open Finset (range sum_congr mul_sum sum_mul sum_comm sum_add_distrib sum_range_succ mem_range)

section
variable {K : Type} [CommRing K]

theorem dense0_sim {J : JIT K} (h : J.Ok) {nT : Nat} {PV : Nat → Prop} {fuel : Nat} (hfu : FuelOk J fuel) {x x' : Nat → K} (hx : LayX J x x') {t : Nat} (ht : t < nT)
    {i : Nat} (hi : i < J.R.arr.nLeaf) {m m' : Loc → K} (hS : Sim J nT PV m m') :
    ∃ m1, J.dense0 x fuel t m i = .ok m1 ∧ Sim J nT PV m1 (dense0 J.aot x' t m' i) := by
  have hv : J.R.leaf i < J.R.arr.nNode := (mem_leaf h.wf hi).1
  have hk : 0 < J.R.kdim := h.wf.kdim
  have hsm := fun e => h.smallD e i (by omega)
  have hD : J.aot.D i = J.block (J.cPts (J.R.leaf i)) (J.cPts (J.R.leaf i)) := by
    show (if i < J.R.arr.nLeaf then _ else _) = _
    rw [if_pos hi]
  rw [hD] at hsm
  have hq : (J.block (J.cPts (J.R.leaf i)) (J.cPts (J.R.leaf i))).ncol = J.npt (J.R.leaf i) * J.R.kdim := rfl
  have hp : (J.block (J.cPts (J.R.leaf i)) (J.cPts (J.R.leaf i))).nrow = J.npt (J.R.leaf i) * J.R.kdim := rfl
  have he : (J.block (J.cPts (J.R.leaf i)) (J.cPts (J.R.leaf i))).e = kmat J.kern J.R.kdim (point J.xdim (J.cPts (J.R.leaf i)).1 J.R.nPoint) (point J.xdim (J.cPts (J.R.leaf i)).1 J.R.nPoint) := rfl
  have hlf : J.aot.leaf i = J.R.leaf i := rfl
  have hrs : J.aot.rowS (J.R.leaf i) = J.R.rowS (J.R.leaf i) := rfl
  unfold JIT.dense0
  dsimp only
  rw [hD]
  have hres : ∀ b, dense0 J.aot x' t m' i b = m' b + biD (J.npt (J.R.leaf i) * J.R.kdim) (J.npt (J.R.leaf i) * J.R.kdim)
      (J.block (J.cPts (J.R.leaf i)) (J.cPts (J.R.leaf i))).e (fun k => x' (J.R.rowS (J.R.leaf i) + k)) (fun k => x' (J.R.rowS (J.R.leaf i) + k))
      (fun k => (Sum.inl (Loc.ty t (J.R.rowS (J.R.leaf i) + k)) : Loc ⊕ Nat)) (fun k => .inr k) (.inl b) := by
    intro b
    rw [dense0_adds, hD, hlf, hrs]
    unfold biD
    rw [hp, hq]
    simp
  cases hb : J.bimv with
  | none =>
    have hxx : x = x' := by unfold LayX at hx; rw [hb] at hx; exact hx
    subst hxx
    obtain ⟨m1, c, hm⟩ := call_eval hb hk (junk := J.R.adm.length + i) (ncol := (J.block (J.cPts (J.R.leaf i)) (J.cPts (J.R.leaf i))).ncol) (fuel := fuel)
      (p := J.cPts (J.R.leaf i)) (q := J.cPts (J.R.leaf i)) (by rw [hq]; exact Nat.mul_pos (npt_pos _) hk) (hsm hb) (hfu.2 _ hv)
      (fun k => x (J.R.arr.ptS (J.R.leaf i) + k)) (fun k => x (J.R.arr.ptS (J.R.leaf i) + k)) (fun k => .inl (.ty t (J.R.arr.ptS (J.R.leaf i) + k))) (fun k => .inr k)
      J.R.nPoint 0 J.R.nPoint 0 (fun k => x (J.R.rowS (J.R.leaf i) + k)) (fun k => x (J.R.rowS (J.R.leaf i) + k))
      (ae0 := fun k => .inl (.ty t (J.R.rowS (J.R.leaf i) + k))) (ae1 := fun k => .inr k) ⟨fun k => ⟨_, rfl⟩, fun j => .inr rfl⟩ m
    refine ⟨m1, c, fun a b hab => ?_⟩
    have hab' : a = b := by unfold Rel at hab; rw [hb] at hab; exact hab
    subst hab'
    rw [hm, hres, hS a a (by unfold Rel; rw [hb]), hp, hq]
  | some f =>
    have hx' : ∀ a < J.R.kdim, ∀ i < J.R.nPoint, x (a * J.R.nPoint + i) = x' (i * J.R.kdim + a) := by unfold LayX at hx; rw [hb] at hx; exact hx
    obtain ⟨m1, c, hm⟩ := call_bimv h hb (fuel := fuel) (junk := J.R.adm.length + i) (ncol := (J.block (J.cPts (J.R.leaf i)) (J.cPts (J.R.leaf i))).ncol)
      (p := J.cPts (J.R.leaf i)) (q := J.cPts (J.R.leaf i))
      (fun k => x (J.R.arr.ptS (J.R.leaf i) + k)) (fun k => x (J.R.arr.ptS (J.R.leaf i) + k)) (fun k => .inl (.ty t (J.R.arr.ptS (J.R.leaf i) + k))) (fun k => .inr k)
      J.R.nPoint 0 J.R.nPoint 0 (fun k => x (J.R.rowS (J.R.leaf i) + k)) (fun k => x (J.R.rowS (J.R.leaf i) + k))
      (fun k => .inl (.ty t (J.R.rowS (J.R.leaf i) + k))) (fun k => .inr k) m
    refine ⟨m1, c, fun a b hab => ?_⟩
    have hab' : RelT J nT PV a b := by unfold Rel at hab; rw [hb] at hab; exact hab
    rw [hm, hres, hS a b hab]
    congr 1
    apply kernD_eq
    · intro b hb j hj
      exact layX_pt h hx' hv hj hb
    · rintro a ha i hi ⟨c, _, j, _, e⟩
      cases e
    · intro a ha i hi
      rw [Sum.inl.injEq, Sum.inl.injEq]
      exact RelT.iff hab' (relT_ty h hv ht hi ha)
    · intro b hb j hj
      constructor <;> intro e <;> cases e

theorem dense1_sim {J : JIT K} (h : J.Ok) {nT : Nat} {PV : Nat → Prop} {fuel : Nat} (hfu : FuelOk J fuel) {x x' : Nat → K} (hx : LayX J x x') {t : Nat} (ht : t < nT)
    {i : Nat} (hi : i < J.R.inadm.length) {m m' : Loc → K} (hS : Sim J nT PV m m') :
    ∃ m1, J.dense1 x fuel t m i = .ok m1 ∧ Sim J nT PV m1 (dense1 J.aot x' t m' i) := by
  have hk : 0 < J.R.kdim := h.wf.kdim
  have hn := h.wf.inadmNode _ (List.getElem_mem hi)
  have harr : J.aot.arr = J.R.arr := rfl
  rw [harr] at hn
  have hsm := fun e => h.smallD e (J.R.arr.nLeaf + i) (by omega)
  have hg : J.R.inadm.getD i (0, 0) = J.R.inadm[i] := getD_inadm hi
  have hga : J.aot.inadm.getD i (0, 0) = J.R.inadm[i] := getD_inadm hi
  have hD : J.aot.D (J.R.arr.nLeaf + i) = J.block (J.cPts J.R.inadm[i].1) (J.cPts J.R.inadm[i].2) := by
    show (if J.R.arr.nLeaf + i < J.R.arr.nLeaf then _ else _) = _
    rw [if_neg (by omega), Nat.add_sub_cancel_left, hg]
  rw [hD] at hsm
  unfold JIT.dense1 dense1
  dsimp only
  rw [hg, hga, harr, hD]
  generalize J.R.inadm[i] = pr at *
  obtain ⟨n0, n1⟩ := pr
  dsimp only at hn hsm ⊢
  have hq : (J.block (J.cPts n0) (J.cPts n1)).ncol = (J.cPts n1).2.2 * J.R.kdim := rfl
  rw [hq] at hsm ⊢
  apply call_sim h _ _ hS
  · intro e
    have hx' : x = x' := by unfold LayX at hx; rw [e] at hx; exact hx
    refine ⟨Nat.mul_pos (npt_pos n1) hk, hsm e, hfu.2 n0 hn.1, by rw [hx']; rfl, by rw [hx']; rfl, rfl, rfl⟩
  · intro f e
    have hx' : ∀ a < J.R.kdim, ∀ i < J.R.nPoint, x (a * J.R.nPoint + i) = x' (i * J.R.kdim + a) := by unfold LayX at hx; rw [e] at hx; exact hx
    refine ⟨fun b hb j hj => layX_pt h hx' hn.2 hj hb, fun a ha i hi => layX_pt h hx' hn.1 hi ha,
        fun a ha i hi => relT_ty h hn.1 ht hi ha, fun b hb j hj => relT_ty h hn.2 ht hj hb⟩

theorem fuel_exists (J : JIT K) : ∃ N, ∀ fuel, N ≤ fuel → FuelOk J fuel := by
  refine ⟨∑ v ∈ range J.R.arr.nNode, (J.jn v + J.npt v) + 1, fun fuel hf => ⟨fun v hv => ?_, fun v hv => ?_⟩⟩
  · have := Finset.single_le_sum (f := fun v => J.jn v + J.npt v) (fun _ _ => Nat.zero_le _) (mem_range.2 hv)
    omega
  · have := Finset.single_le_sum (f := fun v => J.jn v + J.npt v) (fun _ _ => Nat.zero_le _) (mem_range.2 hv)
    omega

/-! ## Layouts -/

theorem layX_init {J : JIT K} (h : J.Ok) (gx px : Nat → K) :
    LayX J (if J.needTrans then JIT.transp J.R.nPoint J.R.kdim px gx else px) px := by
  have hk : 0 < J.R.kdim := h.wf.kdim
  unfold LayX JIT.needTrans
  cases hb : J.bimv with
  | none => simp
  | some f =>
    simp only [Option.isSome_some, Bool.true_and, decide_eq_true_eq]
    intro a ha i hi
    by_cases hk1 : J.R.kdim > 1
    · rw [if_pos hk1, transp_eq _ _ _ _ ha hi]
    · rw [if_neg hk1]
      have : J.R.kdim = 1 := by omega
      congr 1
      have ha0 : a = 0 := by omega
      rw [ha0, this]; omega

theorem layY_init {J : JIT K} (h : J.Ok) (g0 : Nat → Nat → K) (y : Y0 K)
    (hy : ∀ v < J.R.arr.nNode, J.R.minAdm ≤ J.R.arr.level v → (y v).1 = (J.R.U v).ncol) :
    LayY J (if J.needTrans then J.transY0 g0 y else y) y := by
  have hk : 0 < J.R.kdim := h.wf.kdim
  unfold LayY JIT.needTrans
  cases hb : J.bimv with
  | none => simp
  | some f =>
    simp only [Option.isSome_some, Bool.true_and, decide_eq_true_eq]
    intro v hv hl a ha i hi
    have e : (y v).1 = J.jn v * J.R.kdim := by rw [hy v hv hl, h.rankJ v hv hl]
    by_cases hk1 : J.R.kdim > 1
    · rw [if_pos hk1]
      unfold JIT.transY0
      dsimp only
      rw [e, if_pos (by rw [Nat.mul_comm (J.jn v)]; exact idx_lt ha hi), Nat.mul_div_cancel _ hk, transp_eq _ _ _ _ ha hi]
    · rw [if_neg hk1]
      have : J.R.kdim = 1 := by omega
      have ha0 : a = 0 := by omega
      rw [ha0, this, Nat.zero_mul, Nat.zero_add, Nat.mul_one, Nat.add_zero]

theorem sim_init {J : JIT K} (h : J.Ok) (E : Env K) (hE : E.Valid J.aot) : Sim J E.nThread (PVm J) (initMem J.R E) (initMem J.aot E) := by
  intro a b hab
  unfold Rel at hab
  cases hb : J.bimv with
  | none => rw [hb] at hab; subst hab; rfl
  | some f =>
    rw [hb] at hab
    cases hab with
    | y1 v t i a hv ht hi ha =>
      have e1 : y1ncol J.R E v = J.jn v * J.R.kdim := by rw [y1ncol_marked hv.2.2, h.rankJ v hv.1 hv.2.1]
      have e2 : y1ncol J.aot E v = J.jn v * J.R.kdim := e1
      have hld : y1ld J.R v ≠ 0 := by
        unfold y1ld
        rw [if_pos hv.2.2]
        exact Nat.pos_iff_ne_zero.1 (h.wf.rank v hv.1 hv.2.1)
      have hld' : y1ld J.aot v ≠ 0 := hld
      unfold initMem
      dsimp only
      rw [if_pos, if_pos]
      · refine ⟨hld', ?_⟩
        rw [e2, hE.team]
        exact idx_lt ht (idx_lt hi ha)
      · refine ⟨hld, ?_⟩
        rw [e1, hE.team]
        exact idx_lt ht (by rw [Nat.mul_comm (J.jn v)]; exact idx_lt ha hi)
    | ty => rfl
    | y => rfl

theorem pushKids_aot (J : JIT K) (E : Env K) (tmp : Nat → K) (cs : List Nat) : ∀ (idx : Nat) (s : BwdSt K),
    pushKids J.R E tmp cs idx s = pushKids J.aot E tmp cs idx s := by
  induction cs with
  | nil => intro idx s; rfl
  | cons c cs ih =>
    intro idx s
    rw [pushKids, pushKids, ih]
    rfl

theorem bwd_aot (J : JIT K) (E : Env K) (s : BwdSt K) : bwdTransform J.R E s = bwdTransform J.aot E s := by
  have node : bwdNode J.R E = bwdNode J.aot E := by
    funext s v
    unfold bwdNode
    dsimp only
    rw [pushKids_aot]
    rfl
  unfold bwdTransform
  rw [node]
  rfl

/-- The memory after the backward transformation of the two runs. -/
theorem sim_bwd {J : JIT K} (h : J.Ok) (E : Env K) (hE : E.Valid J.aot) (g1 : Nat → Nat → K) {m m' : Loc → K} (hS : Sim J E.nThread (PVm J) m m') :
    Sim J E.nThread (fun _ => False)
      (bwdTransform J.R E ⟨y1ld J.R, if J.needTrans then J.transY1 E g1 (sumY1 J.R E m) else sumY1 J.R E m⟩).mem
      (bwdTransform J.aot E ⟨y1ld J.aot, sumY1 J.aot E m'⟩).mem := by
  have hk : 0 < J.R.kdim := h.wf.kdim
  have hbt : ∀ s, bwdTransform J.R E s = bwdTransform J.aot E s := bwd_aot J E
  have hld : y1ld J.R = y1ld J.aot := rfl
  rw [hbt, hld]
  intro a b hab
  cases hb : J.bimv with
  | none =>
    unfold Rel at hab
    rw [hb] at hab
    subst hab
    have hm : m = m' := by
      funext l
      exact hS l l (by unfold Rel; rw [hb])
    subst hm
    have : J.needTrans = false := by unfold JIT.needTrans; rw [hb]; rfl
    rw [this]
    rfl
  | some f =>
    have hR : ∀ a b, RelT J E.nThread (PVm J) a b → m a = m' b := by
      intro a b hr
      exact hS a b (by unfold Rel; rw [hb]; exact hr)
    unfold Rel at hab
    rw [hb] at hab
    cases hab with
    | y1 v t i a hv ht hi ha => exact hv.elim
    | ty t i a ht hi ha =>
      rw [bwd_ty, bwd_ty]
      have : (if J.needTrans then J.transY1 E g1 (sumY1 J.R E m) else sumY1 J.R E m) (.ty t (a * J.R.nPoint + i)) = m (.ty t (a * J.R.nPoint + i)) := by
        split <;> rfl
      dsimp only
      rw [this]
      exact hR _ _ (.ty t i a ht hi ha)
    | y r =>
      rw [bwd_spec h.wf (basis_nested h.wf) E hE.bwd, bwd_spec h.wf (basis_nested h.wf) E hE.bwd]
      have h1 : (if J.needTrans then J.transY1 E g1 (sumY1 J.R E m) else sumY1 J.R E m) (.y r) = m (.y r) := by
        split <;> rfl
      dsimp only
      rw [h1]
      congr 1
      · exact hR _ _ (.y r)
      · apply sum_congr rfl
        intro v hv
        unfold deep at hv
        rw [Finset.mem_filter, mem_range] at hv
        unfold term
        dsimp only
        by_cases hm : J.R.mark v = 0
        · have : y1ld J.aot v = 0 := by show y1ld J.R v = 0; unfold y1ld; rw [if_neg (by omega)]
          rw [if_neg (not_not.2 this), if_neg (not_not.2 this)]
        · have pv : PVm J v := ⟨hv.1, hv.2, hm⟩
          have hrk : 0 < (J.R.U v).ncol := h.wf.rank v hv.1 hv.2
          have hl1 : y1ld J.R v ≠ 0 := by unfold y1ld; rw [if_pos hm]; omega
          have hl2 : y1ld J.aot v ≠ 0 := hl1
          have en : y1ncol J.R E v = J.jn v * J.R.kdim := by rw [y1ncol_marked hm, h.rankJ v hv.1 hv.2]
          have en' : y1ncol J.aot E v = J.jn v * J.R.kdim := en
          rw [if_pos hl2, if_pos hl2]
          apply sum_congr rfl
          intro c hc
          congr 1
          rw [mem_range] at hc
          have hc' : c < J.jn v * J.R.kdim := by rw [← h.rankJ v hv.1 hv.2]; exact hc
          have hia : c / J.R.kdim < J.jn v := Nat.div_lt_of_lt_mul (by rw [Nat.mul_comm]; exact hc')
          have haa : c % J.R.kdim < J.R.kdim := Nat.mod_lt _ hk
          have hcc : c / J.R.kdim * J.R.kdim + c % J.R.kdim = c := by rw [Nat.mul_comm]; exact Nat.div_add_mod _ _
          have rhs : sumY1 J.aot E m' (.y1 v c) = ∑ t ∈ range E.nThread, m' (.y1 v (t * (J.jn v * J.R.kdim) + c)) := by
            show (if v < J.aot.arr.nNode ∧ y1ld J.aot v ≠ 0 then _ else _) = _
            rw [if_pos ⟨hv.1, hl2⟩, en', sumRows_eq _ _ hE.threads _ _ hc']
          have lhs : ∀ k < J.jn v * J.R.kdim, sumY1 J.R E m (.y1 v k) = ∑ t ∈ range E.nThread, m (.y1 v (t * (J.jn v * J.R.kdim) + k)) := by
            intro k hk'
            show (if v < J.R.arr.nNode ∧ y1ld J.R v ≠ 0 then _ else _) = _
            rw [if_pos ⟨hv.1, hl1⟩, en, sumRows_eq _ _ hE.threads _ _ hk']
          have key : ∑ t ∈ range E.nThread, m (.y1 v (t * (J.jn v * J.R.kdim) + (c % J.R.kdim * J.jn v + c / J.R.kdim))) =
              ∑ t ∈ range E.nThread, m' (.y1 v (t * (J.jn v * J.R.kdim) + c)) := by
            apply sum_congr rfl
            intro t ht
            have := hR _ _ (.y1 v t _ _ pv (mem_range.1 ht) hia haa)
            rw [this, hcc]
          have hin : c % J.R.kdim * J.jn v + c / J.R.kdim < J.jn v * J.R.kdim := by rw [Nat.mul_comm (J.jn v)]; exact idx_lt haa hia
          rw [rhs, ← key]
          by_cases hnt : J.needTrans
          · rw [if_pos hnt]
            show (if v < J.R.arr.nNode ∧ y1ld J.R v ≠ 0 ∧ c < y1ncol J.R E v then _ else _) = _
            rw [if_pos ⟨hv.1, hl1, by rw [en]; exact hc'⟩, en, Nat.mul_div_cancel _ hk]
            conv_lhs => rw [← hcc]
            rw [transp_eq _ _ _ _ hia haa, lhs _ hin]
          · rw [if_neg hnt]
            have hk1 : J.R.kdim = 1 := by
              unfold JIT.needTrans at hnt
              rw [hb] at hnt
              simp at hnt
              omega
            rw [lhs _ hc']
            simp only [hk1, Nat.mod_one, Nat.div_one, Nat.zero_mul, Nat.zero_add]

/-- The JIT matvec terminates without undefined behaviour and gives the product of the AOT matvec. -/
theorem jit_spec {J : JIT K} (h : J.Ok) (E : Env K) (hE : E.Valid J.aot) (g0 g1 : Nat → Nat → K) (gx px : Nat → K) :
    ∃ N, ∀ fuel, N ≤ fuel → ∃ y, J.matvecPmt E g0 g1 gx fuel px = .ok y ∧ ∀ r < J.R.size, y r = matvecPmt J.aot E px r := by
  obtain ⟨N, hN⟩ := fuel_exists J
  refine ⟨N, fun fuel hf => ?_⟩
  have hfu := hN fuel hf
  have hk : 0 < J.R.kdim := h.wf.kdim
  unfold JIT.matvecPmt
  dsimp only
  have hx := layX_init h gx px
  have hfe : fwdTransform J.R E px = fwdTransform J.aot E px := rfl
  have hy := layY_init h g0 (fwdTransform J.R E px) (fun v hv hl => by
    rw [hfe]
    exact (fwd_spec h.wf (basis_nested h.wf) E hE px v hv hl).1)
  generalize (if J.needTrans then JIT.transp J.R.nPoint J.R.kdim px gx else px) = x at *
  generalize (if J.needTrans then J.transY0 g0 (fwdTransform J.R E px) else fwdTransform J.R E px) = y0 at *
  rw [hfe] at hy
  obtain ⟨m1, e1, s1⟩ := sched_sim hE.cutB hE.schedB (Sim J E.nThread (PVm J)) (fun t => J.intmdPair E x y0 fuel t)
    (fun t => intmdPair J.aot E px (fwdTransform J.aot E px) t)
    (fun t ht i hi m m' hS => intmd_sim h E hfu hx hy ht hi hS) (initMem J.R E) (initMem J.aot E) (sim_init h E hE)
  rw [e1, Res.bind_ok]
  have s2 := sim_bwd h E hE g1 s1
  generalize hM : (bwdTransform J.R E ⟨y1ld J.R, if J.needTrans then J.transY1 E g1 (sumY1 J.R E m1) else sumY1 J.R E m1⟩).mem = M at *
  obtain ⟨m3, e3, s3⟩ := sched_sim hE.cutD0 hE.schedD0 (Sim J E.nThread (fun _ => False)) (fun t => J.dense0 x fuel t) (fun t => dense0 J.aot px t)
    (fun t ht i hi m m' hS => dense0_sim h hfu hx ht hi hS) M _ s2
  rw [e3, Res.bind_ok]
  obtain ⟨m4, e4, s4⟩ := sched_sim hE.cutD1 hE.schedD1 (Sim J E.nThread (fun _ => False)) (fun t => J.dense1 x fuel t) (fun t => dense1 J.aot px t)
    (fun t ht i hi m m' hS => dense1_sim h hfu hx ht hi hS) m3 _ s3
  rw [e4, Res.bind_ok]
  have hfin : ∀ r < J.R.size, matvecPmt J.aot E px r = _ := fun r hr => by
    unfold matvecPmt
    exact reduce_spec hE.threads hE.red _ r hr
  unfold denseAOT intmdAOT at hfin
  generalize (List.foldl (fun mem tb => taskBlock E.blkD1 (dense1 J.aot px tb.1) mem tb.2) _ E.schedD1) = m4' at s4 hfin
  by_cases hnt : J.needTrans
  · rw [if_pos hnt]
    refine ⟨_, rfl, fun r hr => ?_⟩
    rw [hfin r hr, if_pos hr]
    obtain ⟨f, hb⟩ : ∃ f, J.bimv = some f := by
      unfold JIT.needTrans at hnt
      cases hb : J.bimv with
      | none => rw [hb] at hnt; simp at hnt
      | some f => exact ⟨f, rfl⟩
    have hR : ∀ a b, RelT J E.nThread (fun _ => False) a b → m4 a = m4' b := by
      intro a b hr
      exact s4 a b (by unfold Rel; rw [hb]; exact hr)
    have hia : r / J.R.kdim < J.R.nPoint := Nat.div_lt_of_lt_mul (by rw [Nat.mul_comm]; exact hr)
    have haa : r % J.R.kdim < J.R.kdim := Nat.mod_lt _ hk
    have hcc : r / J.R.kdim * J.R.kdim + r % J.R.kdim = r := by rw [Nat.mul_comm]; exact Nat.div_add_mod _ _
    rw [hR _ _ (.y r)]
    congr 1
    conv_lhs => rw [← hcc]
    rw [transp_eq _ _ _ _ hia haa, reduce_spec hE.threads hE.red _ _ (by unfold Rep.size; rw [Nat.mul_comm J.R.nPoint]; exact idx_lt haa hia)]
    dsimp only
    rw [zero_add]
    apply sum_congr rfl
    intro t ht
    rw [hR _ _ (.ty t _ _ (mem_range.1 ht) hia haa), hcc]
  · rw [if_neg hnt]
    refine ⟨_, rfl, fun r hr => ?_⟩
    rw [hfin r hr, reduce_spec hE.threads hE.red _ r hr]
    cases hb : J.bimv with
    | none =>
      have : m4 = m4' := by
        funext l
        exact s4 l l (by unfold Rel; rw [hb])
      rw [this]
    | some f =>
      have hR : ∀ a b, RelT J E.nThread (fun _ => False) a b → m4 a = m4' b := by
        intro a b hr
        exact s4 a b (by unfold Rel; rw [hb]; exact hr)
      have hk1 : J.R.kdim = 1 := by
        unfold JIT.needTrans at hnt
        rw [hb] at hnt
        simp at hnt
        omega
      have hrn : r < J.R.nPoint := by unfold Rep.size at hr; rw [hk1, Nat.mul_one] at hr; exact hr
      rw [hR _ _ (.y r)]
      congr 1
      apply sum_congr rfl
      intro t ht
      have := hR _ _ (.ty t r 0 (mem_range.1 ht) hrn (by omega))
      rw [hk1, Nat.zero_mul, Nat.zero_add, Nat.mul_one, Nat.add_zero] at this
      exact this

end
end H2Pack.MV
