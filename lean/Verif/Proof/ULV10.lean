import Verif.Proof.ULV9

/-! # Factorize, then solve -/

set_option linter.unusedSectionVars false

namespace H2Pack.ULV
open Matrix
open H2Pack.MV
open H2Pack.Part (Arr kids ClusterTree Desc)

section
variable {K : Type} [Field K] {R : Rep K} {shift : K} {W : Nat → Nat → Nat → K}

/-- What a successful factorization provides. -/
structure Facts (R : Rep K) (shift : K) (lg : K → K) (upL downL : Nat → NodeFac K → (Nat → K) → Nat → K) (st : FSt K) (X : Data R) : Prop where
  ok : X.Ok shift
  elim : ∀ v < R.arr.nNode, X.Elim v
  up : Local X st.fac upL X.g
  down : Local X st.fac downL X.h
  det : ∃ δ : Nat → K, (∀ v < R.arr.nNode, (X.g v).det * (X.h v).det * δ v = 1) ∧
    (LogLike lg → ∃ L : List Nat, L.Perm (List.range R.arr.nNode) ∧ st.logdet = (L.map fun v => lg (δ v)).sum)

theorem Topo.nodup {L : List Nat} (h : Topo R L) : L.Nodup := by
  induction h with
  | nil => exact List.nodup_nil
  | snoc _ _ hv _ ih =>
    rw [List.nodup_append]
    refine ⟨ih, List.nodup_singleton _, ?_⟩
    intro a ha b hb e
    rw [List.mem_singleton.1 hb] at e
    exact hv (e ▸ ha)

theorem facts_of (H : HSS R) {step root : Mat K → Mat K → Step K} {lg : K → K} {upL downL : Nat → NodeFac K → (Nat → K) → Nat → K} {Hs : Nat → NodeH K}
    {L : List Nat} {st : FSt K} (hT : Topo R L) (hall : ∀ v < R.arr.nNode, v ∈ L) (inv : Inv step root R shift Hs L st)
    (hs : ∀ v < R.arr.nNode, StepOk R shift lg upL downL Hs v) : ∃ X, Facts R shift lg upL downL st X := by
  obtain ⟨X, hX, hq⟩ := data_of H hs
  refine ⟨X, hX, fun v hv => (hq v hv).1, ⟨fun v hv => ?_⟩, ⟨fun v hv => ?_⟩, ?_⟩
  · exact ⟨_, inv.fac v (hall v hv), (hq v hv).2.1, (hq v hv).2.2.1, (hq v hv).2.2.2.1⟩
  · exact ⟨_, inv.fac v (hall v hv), (hq v hv).2.1, (hq v hv).2.2.1, (hq v hv).2.2.2.2.1⟩
  · have : ∀ v, ∃ δ, v < R.arr.nNode → (X.g v).det * (X.h v).det * δ = 1 ∧ (LogLike lg → (Hs v).ld = lg δ) := by
      intro v
      by_cases hv : v < R.arr.nNode
      · obtain ⟨δ, h⟩ := (hq v hv).2.2.2.2.2
        exact ⟨δ, fun _ => h⟩
      · exact ⟨0, fun h => absurd h hv⟩
    choose δ hδ using this
    refine ⟨δ, fun v hv => (hδ v hv).1, fun hlg => ⟨L, ?_, ?_⟩⟩
    · rw [List.perm_ext_iff_of_nodup hT.nodup List.nodup_range]
      intro v
      rw [List.mem_range]
      exact ⟨hT.lt v, hall v⟩
    · rw [inv.ld]
      congr 1
      apply List.map_congr_left
      intro v hv
      exact (hδ v (hT.lt v hv)).2 hlg

/-- The two factorizations. -/
theorem lu_facts {Lp : Lapack K} (hL : Lp.Correct) {lg : K → K} (H : HSS R) {getB getD : Nat → Nat → Option (Blk K)} (hb : Blocks R getB getD)
    {ord : Nat → List Nat} (ho : Order R ord) :
    ∃ st, luFactorize Lp lg R getB getD shift ord = .ok st ∧
      (st.ok = true → (∃ X, Facts R shift lg (luUpL Lp R) (luDownL Lp R) st X) ∧ ∀ v < R.arr.nNode, ∃ f, st.fac v = some f ∧ f.l.nrow - f.ls = f.pLen) ∧
      (st.ok = false → Failed (luStep Lp lg) (luRoot Lp lg) R shift) := by
  have hT : Topo R ((upOrder R ord).map Prod.snd) := by rw [upOrder_nodes]; exact upNodes_topo ho H
  obtain ⟨st, e, h1, h2⟩ := factor_loop (shift := shift) (lu_shape Lp lg) H hb (upOrder R ord) hT (upOrder_level ho H)
  refine ⟨st, e, fun hok => ?_, h2⟩
  obtain ⟨Hs, inv⟩ := h1 hok
  have hall : ∀ v < R.arr.nNode, v ∈ (upOrder R ord).map Prod.snd := fun v hv => by rw [upOrder_nodes]; exact (upNodes_mem ho H).2 hv
  refine ⟨facts_of H hT hall inv (fun v hv => lu_stepOk hL lg H hv (inv.node v (hall v hv))), fun v hv => ?_⟩
  refine ⟨_, inv.fac v (hall v hv), ?_⟩
  obtain ⟨tU, tD, idx, _, _, _, h4⟩ := inv.node v (hall v hv)
  rw [h4]
  unfold stepAt
  by_cases hl : 0 < R.arr.level v
  · rw [if_pos hl]; rfl
  · rw [if_neg hl]; rfl

theorem chol_facts {Lp : Lapack K} (hL : Lp.Correct) {lg : K → K} (H : HSS R) (hD : SymD R) {getB getD : Nat → Nat → Option (Blk K)} (hb : Blocks R getB getD)
    {ord : Nat → List Nat} (ho : Order R ord) :
    ∃ st, cholFactorize Lp lg R getB getD shift ord = .ok st ∧
      (st.ok = true → ∃ X, Facts R shift lg (cholUpL Lp R) (cholDownL Lp R) st X) ∧
      (st.ok = false → Failed (cholStep Lp lg) (cholRoot Lp lg) R shift) := by
  have hT : Topo R ((upOrder R ord).map Prod.snd) := by rw [upOrder_nodes]; exact upNodes_topo ho H
  obtain ⟨st, e, h1, h2⟩ := factor_loop (shift := shift) (chol_shape Lp lg) H hb (upOrder R ord) hT (upOrder_level ho H)
  refine ⟨st, e, fun hok => ?_, h2⟩
  obtain ⟨Hs, inv⟩ := h1 hok
  have hall : ∀ v < R.arr.nNode, v ∈ (upOrder R ord).map Prod.snd := fun v hv => by rw [upOrder_nodes]; exact (upNodes_mem ho H).2 hv
  refine facts_of H hT hall inv (fun v hv => chol_stepOk hL lg H hv (inv.node v (hall v hv)) ?_)
  intro tU tD hA
  apply asm_sym H hD hv _ hA
  intro c hc
  exact chol_sym Lp lg H hD hT inv.node c (hall c (H.wf.tree.kid_lt hv hc)) (by have := H.wf.tree.childLevel v hv c hc; omega)

/-- The sweeps as they are run. -/
theorem Facts.upSweep {lg : K → K} {upL downL : Nat → NodeFac K → (Nat → K) → Nat → K} {st : FSt K} {X : Data R} (hF : Facts R shift lg upL downL st X)
    (H : HSS R) {up : Nat → List Nat} (hu : Order R up) (x : Nat → K) :
    ∃ y, loop (fun x (lv : Nat × Nat) => applyNode (upL lv.2) st.fac x lv.2) (upOrder R up) x = .ok y ∧ vec R y = X.G (upNodes R up) *ᵥ vec R x := by
  obtain ⟨y, e, h1, _⟩ := hF.up.sweep H hF.ok (upNodes R up) (fun v hv => (upNodes_mem hu H).1 hv) x
  refine ⟨y, ?_, h1⟩
  rw [← upOrder_nodes, loop_map] at e
  exact e

theorem Facts.downSweep {lg : K → K} {upL downL : Nat → NodeFac K → (Nat → K) → Nat → K} {st : FSt K} {X : Data R} (hF : Facts R shift lg upL downL st X)
    (H : HSS R) {down : Nat → List Nat} (hd : Order R down) (x : Nat → K) :
    ∃ y, loop (fun x (lv : Nat × Nat) => applyNode (downL lv.2) st.fac x lv.2) (downOrder R down) x = .ok y ∧
      vec R y = X.H (upNodes R fun l => (down l).reverse) *ᵥ vec R x := by
  obtain ⟨y, e, h1, _⟩ := hF.down.sweep H hF.ok (upNodes R fun l => (down l).reverse).reverse (fun v hv => (upNodes_mem hd.reverse H).1 (by simpa using hv)) x
  refine ⟨y, ?_, ?_⟩
  · rw [← downOrder_nodes, loop_map] at e
    exact e
  · rw [h1, ← H_foldl]
    rfl

/-- What a solve does: `A` up, `B` down. -/
def Solves (R : Rep K) (solve : (Nat → K) → (Nat → K) → Nat → (Nat → K) → Res (Option (Nat → K))) (g : (Nat → Nat) × (Nat → Nat))
    (A B : Matrix (Fin R.size) (Fin R.size) K) : Prop :=
  ∀ (dp dx : Nat → K) (op : Nat) (b : Nat → K), 1 ≤ op → op ≤ 3 → ∃ y, solve dp dx op b = .ok (some (permuteBwd R g y dx)) ∧
    vec R y = (if op = 1 then A else if op = 2 then B else B * A) *ᵥ vec R (permuteFwd R g b dp)

theorem lu_solves {Lp : Lapack K} {lg : K → K} {st : FSt K} {X : Data R} (hF : Facts R shift lg (luUpL Lp R) (luDownL Lp R) st X) (H : HSS R)
    (hp : ∀ v < R.arr.nNode, ∃ f, st.fac v = some f ∧ f.l.nrow - f.ls = f.pLen) {up down : Nat → List Nat} (hu : Order R up) (hd : Order R down)
    (g : (Nat → Nat) × (Nat → Nat)) :
    Solves R (fun dp dx op b => luSolve Lp R st.fac up down g dp dx op b) g (X.G (upNodes R up)) (X.H (upNodes R fun l => (down l).reverse)) := by
  have eu : ∀ x, loop (luUp Lp st.fac) (upOrder R up) x = loop (fun x (lv : Nat × Nat) => applyNode (luUpL Lp R lv.2) st.fac x lv.2) (upOrder R up) x := by
    apply loop_congr
    intro lv hlv s
    have hl := upOrder_level hu H lv hlv
    have hv : lv.2 < R.arr.nNode := (upNodes_mem hu H).1 (by rw [← upOrder_nodes]; exact List.mem_map_of_mem hlv)
    obtain ⟨f, hf, e⟩ := hp _ hv
    unfold luUp luUpL
    rw [hf, hl]
    dsimp only
    rw [if_pos e]
  have ed : ∀ x, loop (luDown Lp st.fac) (downOrder R down) x = loop (fun x (lv : Nat × Nat) => applyNode (luDownL Lp R lv.2) st.fac x lv.2) (downOrder R down) x := by
    apply loop_congr
    intro lv hlv s
    have hl := downOrder_level hd H lv hlv
    unfold luDown luDownL
    rw [hl]
  intro dp dx op b h1 h3
  obtain ⟨y, e1, v1⟩ := hF.upSweep H hu (permuteFwd R g b dp)
  obtain ⟨z, e2, v2⟩ := hF.downSweep H hd (permuteFwd R g b dp)
  obtain ⟨z', e3, v3⟩ := hF.downSweep H hd y
  rw [← eu] at e1
  rw [← ed] at e2 e3
  have hop : op = 1 ∨ op = 2 ∨ op = 3 := by omega
  beta_reduce
  rcases hop with rfl | rfl | rfl
  · refine ⟨y, ?_, by rw [if_pos rfl]; exact v1⟩
    unfold luSolve
    rw [if_neg (by decide), if_pos (by decide)]
    simp only [show ¬ (1 / 2 % 2 = 1) by decide, if_false]
    rw [e1]
    rfl
  · refine ⟨z, ?_, by rw [if_neg (by decide), if_pos rfl]; exact v2⟩
    unfold luSolve
    rw [if_neg (by decide), if_neg (by decide)]
    simp only [show (2 / 2 % 2 = 1) by decide, if_true]
    change (do let x ← loop (luDown Lp st.fac) (downOrder R down) (permuteFwd R g b dp); _) = _
    rw [e2]
    rfl
  · refine ⟨z', ?_, ?_⟩
    · unfold luSolve
      rw [if_neg (by decide), if_pos (by decide)]
      simp only [show (3 / 2 % 2 = 1) by decide, if_true]
      rw [e1]
      change (do let x ← loop (luDown Lp st.fac) (downOrder R down) y; _) = _
      rw [e3]
      rfl
    · rw [v3, v1, Matrix.mulVec_mulVec, if_neg (by decide), if_neg (by decide)]

theorem bind_ok {α β : Type} {m : Res α} {f : α → Res β} {y : β} (h : (do let x ← m; f x) = .ok y) : ∃ t, m = .ok t ∧ f t = .ok y := by
  cases m with
  | ok t => exact ⟨t, rfl, h⟩
  | ub => cases h
  | diverge => cases h

theorem upOrder_split (ord : Nat → List Nat) : upOrder R ord = upOrder1 R ord ++ (ord 0).map fun v => (0, v) := by
  unfold upOrder upOrder1
  rw [List.range_eq_range', List.range'_succ, List.reverse_cons, List.flatMap_append, List.flatMap_singleton]

theorem downOrder_split (ord : Nat → List Nat) : downOrder R ord = ((ord 0).map fun v => (0, v)) ++ downOrder1 R ord := by
  unfold downOrder downOrder1
  rw [List.range_eq_range', List.range'_succ, List.flatMap_cons]

theorem level_zero (H : HSS R) {v : Nat} (hv : v < R.arr.nNode) (hl : R.arr.level v = 0) : v = R.arr.nNode - 1 := by
  by_contra hne
  obtain ⟨p, hp, _, hc⟩ := H.wf.tree.childOfParent v (by omega)
  have := H.wf.tree.childLevel p hp v hc
  omega

theorem ord_zero (H : HSS R) {ord : Nat → List Nat} (ho : Order R ord) : ord 0 = [R.arr.levelNodes 0] := by
  have hne := H.wf.tree.nonempty
  have hl : R.levelList 0 = [R.arr.nNode - 1] := by
    have h2 : (R.levelList 0).Perm [R.arr.nNode - 1] := by
      rw [List.perm_ext_iff_of_nodup (levelList_nodup H.wf 0) (List.nodup_singleton _)]
      intro v
      rw [mem_levelList H.wf, List.mem_singleton]
      constructor
      · rintro ⟨h1, h2⟩
        exact level_zero H h1 h2
      · intro e
        rw [e]
        exact ⟨by omega, H.wf.tree.rootLevel⟩
    exact List.perm_singleton.1 h2
  have hh : R.arr.levelNodes 0 = R.arr.nNode - 1 := by
    have := hl
    unfold Rep.levelList at this
    cases hn : R.arr.levelN 0 with
    | zero => rw [hn] at this; simp at this
    | succ n =>
      rw [hn, List.range_succ_eq_map, List.map_cons] at this
      have := (List.cons.inj this).1
      simpa using this
  rw [hh]
  have := ho 0
  rw [hl] at this
  exact List.perm_singleton.1 this

theorem chol_solves {Lp : Lapack K} {lg : K → K} {st : FSt K} {X : Data R} (hF : Facts R shift lg (cholUpL Lp R) (cholDownL Lp R) st X) (H : HSS R)
    {up down : Nat → List Nat} (hu : Order R up) (hd : Order R down) (g : (Nat → Nat) × (Nat → Nat)) :
    Solves R (fun dp dx op b => cholSolve Lp R st.fac up down g dp dx op b) g (X.G (upNodes R up)) (X.H (upNodes R fun l => (down l).reverse)) := by
  have hroot : R.arr.level (R.arr.levelNodes 0) = 0 := ((hu.mem H).1 (show R.arr.levelNodes 0 ∈ up 0 by rw [ord_zero H hu]; simp)).2
  have eu : ∀ x, loop (fun x (lv : Nat × Nat) => applyNode (cholUpL Lp R lv.2) st.fac x lv.2) (upOrder R up) x =
      (do let x ← loop (fun x (lv : Nat × Nat) => applyNode (cholUpLocal Lp) st.fac x lv.2) (upOrder1 R up) x
          applyNode cholUpRootLocal st.fac x (R.arr.levelNodes 0)) := by
    intro x
    rw [upOrder_split, ord_zero H hu, List.map_singleton, loop_snoc]
    have : loop (fun x (lv : Nat × Nat) => applyNode (cholUpL Lp R lv.2) st.fac x lv.2) (upOrder1 R up) x =
        loop (fun x (lv : Nat × Nat) => applyNode (cholUpLocal Lp) st.fac x lv.2) (upOrder1 R up) x := by
      apply loop_congr
      intro lv hlv s
      have hl := upOrder_level hu H lv (by rw [upOrder_split]; exact List.mem_append_left _ hlv)
      unfold upOrder1 at hlv
      obtain ⟨l, h1, h2⟩ := List.mem_flatMap.1 hlv
      obtain ⟨v, hv, rfl⟩ := List.mem_map.1 h2
      simp only [List.mem_reverse, List.mem_range'_1] at h1
      have hl : l = R.arr.level v := hl
      unfold cholUpL
      rw [if_neg (show ¬ R.arr.level v = 0 by omega)]
    rw [this]
    dsimp only
    unfold cholUpL
    rw [if_pos hroot]
  have ed : ∀ x, loop (fun x (lv : Nat × Nat) => applyNode (cholDownL Lp R lv.2) st.fac x lv.2) (downOrder R down) x =
      (do let x ← applyNode cholDownRootLocal st.fac x (R.arr.levelNodes 0)
          loop (fun x (lv : Nat × Nat) => applyNode (cholDownLocal Lp) st.fac x lv.2) (downOrder1 R down) x) := by
    intro x
    have : ∀ x, loop (fun x (lv : Nat × Nat) => applyNode (cholDownL Lp R lv.2) st.fac x lv.2) (downOrder1 R down) x =
        loop (fun x (lv : Nat × Nat) => applyNode (cholDownLocal Lp) st.fac x lv.2) (downOrder1 R down) x := by
      apply loop_congr
      intro lv hlv s
      have hl := downOrder_level hd H lv (by rw [downOrder_split]; exact List.mem_append_right _ hlv)
      unfold downOrder1 at hlv
      obtain ⟨l, h1, h2⟩ := List.mem_flatMap.1 hlv
      obtain ⟨v, hv, rfl⟩ := List.mem_map.1 h2
      simp only [List.mem_range'_1] at h1
      have hl : l = R.arr.level v := hl
      unfold cholDownL
      rw [if_neg (show ¬ R.arr.level v = 0 by omega)]
    rw [downOrder_split, ord_zero H hd, List.map_singleton, List.singleton_append]
    simp only [loop]
    rw [show cholDownL Lp R (R.arr.levelNodes 0) = cholDownRootLocal by unfold cholDownL; rw [if_pos hroot]]
    cases applyNode cholDownRootLocal st.fac x (R.arr.levelNodes 0) with
    | ok t => exact this t
    | ub => rfl
    | diverge => rfl
  intro dp dx op b h1 h3
  obtain ⟨y, e1, v1⟩ := hF.upSweep H hu (permuteFwd R g b dp)
  obtain ⟨z, e2, v2⟩ := hF.downSweep H hd (permuteFwd R g b dp)
  obtain ⟨z', e3, v3⟩ := hF.downSweep H hd y
  rw [eu] at e1
  rw [ed] at e2 e3
  obtain ⟨t1, e11, e12⟩ := bind_ok e1
  obtain ⟨t2, e21, e22⟩ := bind_ok e2
  obtain ⟨t3, e31, e32⟩ := bind_ok e3
  have hop : op = 1 ∨ op = 2 ∨ op = 3 := by omega
  beta_reduce
  rcases hop with rfl | rfl | rfl
  · refine ⟨y, ?_, by rw [if_pos rfl]; exact v1⟩
    unfold cholSolve
    rw [if_neg (by decide), if_pos (by decide)]
    simp only [show ¬ (1 / 2 % 2 = 1) by decide, if_false]
    rw [e11]
    change (do let x ← applyNode cholUpRootLocal st.fac t1 (R.arr.levelNodes 0); _) = _
    rw [e12]
    rfl
  · refine ⟨z, ?_, by rw [if_neg (by decide), if_pos rfl]; exact v2⟩
    unfold cholSolve
    rw [if_neg (by decide), if_neg (by decide)]
    simp only [show (2 / 2 % 2 = 1) by decide, if_true]
    change (do let x ← applyNode cholDownRootLocal st.fac (permuteFwd R g b dp) (R.arr.levelNodes 0); _) = _
    rw [e21]
    change (do let x ← loop (fun x (lv : Nat × Nat) => applyNode (cholDownLocal Lp) st.fac x lv.2) (downOrder1 R down) t2; _) = _
    rw [e22]
    rfl
  · refine ⟨z', ?_, ?_⟩
    · unfold cholSolve
      rw [if_neg (by decide), if_pos (by decide)]
      simp only [show (3 / 2 % 2 = 1) by decide, if_true]
      rw [e11]
      change (do let x ← applyNode cholUpRootLocal st.fac t1 (R.arr.levelNodes 0); _) = _
      rw [e12]
      change (do let x ← applyNode cholDownRootLocal st.fac y (R.arr.levelNodes 0); _) = _
      rw [e31]
      change (do let x ← loop (fun x (lv : Nat × Nat) => applyNode (cholDownLocal Lp) st.fac x lv.2) (downOrder1 R down) t3; _) = _
      rw [e32]
      rfl
    · rw [v3, v1, Matrix.mulVec_mulVec, if_neg (by decide), if_neg (by decide)]

/-- Two steps give what one step gives, and the product of the two operators is the inverse. -/
theorem Solves.result {solve : (Nat → K) → (Nat → K) → Nat → (Nat → K) → Res (Option (Nat → K))} {g : (Nat → Nat) × (Nat → Nat)}
    {A B M : Matrix (Fin R.size) (Fin R.size) K} (hs : Solves R solve g A B) (h : WF R) (hAB : A * M * B = 1) (dp dx b : Nat → K) :
    ∃ x, solve dp dx 3 b = .ok (some x) ∧ M *ᵥ vec R (permuteFwd R g x dp) = vec R (permuteFwd R g b dp) ∧ ∀ k, R.nPoint * R.kdim ≤ k → x k = dx k := by
  obtain ⟨y, e, hv⟩ := hs dp dx 3 b (by omega) (by omega)
  refine ⟨_, e, ?_, fun k hk => ((C26_permutations R h.perm g y dx dx).2.2.2.2 k hk).2⟩
  have e1 : vec R (permuteFwd R g (permuteBwd R g y dx) dp) = vec R y := by
    funext r
    exact (C26_permutations R h.perm g y dx dp).2.2.2.1 r r.2
  rw [e1, hv]
  simp only [show ¬ (3 : Nat) = 1 by omega, show ¬ (3 : Nat) = 2 by omega, if_false]
  rw [Matrix.mulVec_mulVec, ← Matrix.mul_assoc]
  rw [Matrix.mul_assoc] at hAB
  rw [mul_eq_one_comm.1 hAB, Matrix.one_mulVec]

theorem Solves.twoSteps {solve : (Nat → K) → (Nat → K) → Nat → (Nat → K) → Res (Option (Nat → K))} {g : (Nat → Nat) × (Nat → Nat)}
    {A B : Matrix (Fin R.size) (Fin R.size) K} (hs : Solves R solve g A B) (h : WF R) (dp dp1 dp2 dx dx1 b : Nat → K) :
    ∃ y x, solve dp1 dx1 1 b = .ok (some y) ∧ solve dp2 dx 2 y = .ok (some x) ∧ solve dp dx 3 b = .ok (some x) := by
  obtain ⟨y1, e1, v1⟩ := hs dp1 dx1 1 b (by omega) (by omega)
  obtain ⟨y2, e2, v2⟩ := hs dp2 dx 2 (permuteBwd R g y1 dx1) (by omega) (by omega)
  obtain ⟨y3, e3, v3⟩ := hs dp dx 3 b (by omega) (by omega)
  refine ⟨_, _, e1, e2, ?_⟩
  rw [e3]
  simp only [show ¬ (3 : Nat) = 1 by omega, show ¬ (3 : Nat) = 2 by omega, show ¬ (2 : Nat) = 1 by omega, if_true, if_false] at v1 v2 v3
  have e4 : vec R (permuteFwd R g (permuteBwd R g y1 dx1) dp2) = vec R y1 := by
    funext r
    exact (C26_permutations R h.perm g y1 dx1 dp2).2.2.2.1 r r.2
  have e5 : vec R (permuteFwd R g b dp1) = vec R (permuteFwd R g b dp) := by
    funext r
    have hr : (r : Nat) < R.nPoint * R.kdim := r.2
    obtain ⟨i, hi, a, ha, e⟩ := row_split hr
    show permuteFwd R g b dp1 r = permuteFwd R g b dp r
    rw [e, (C26_permutations R h.perm g b dp1 dp1).1 i hi a ha, (C26_permutations R h.perm g b dp dp).1 i hi a ha]
  have : vec R y2 = vec R y3 := by rw [v2, e4, v1, e5, v3, Matrix.mulVec_mulVec]
  congr 2
  funext k
  by_cases hk : k < R.nPoint * R.kdim
  · obtain ⟨p, hp, a, ha, rfl⟩ := row_split hk
    obtain ⟨i, hi, rfl⟩ := perm_surj h.perm hp
    rw [(C26_permutations R h.perm g y3 dx dx).2.1 i hi a ha, (C26_permutations R h.perm g y2 dx dx).2.1 i hi a ha]
    exact (congrFun this ⟨i * R.kdim + a, row_lt hi ha⟩).symm
  · rw [((C26_permutations R h.perm g y3 dx dx).2.2.2.2 k (by omega)).2, ((C26_permutations R h.perm g y2 dx dx).2.2.2.2 k (by omega)).2]

/-- The sum of logarithms. -/
theorem LogLike.prod {lg : K → K} (h : LogLike lg) (δ : Nat → K) (L : List Nat) (h0 : ∀ v ∈ L, δ v ≠ 0) : (L.map fun v => lg (δ v)).sum = lg (L.map δ).prod := by
  induction L with
  | nil => simp [h.one]
  | cons v L ih =>
    rw [List.map_cons, List.sum_cons, List.map_cons, List.prod_cons, ih (fun w hw => h0 w (by simp [hw])), h.mul _ _ (h0 v (by simp))]
    apply List.prod_ne_zero
    intro hm
    obtain ⟨w, hw, e⟩ := List.mem_map.1 hm
    exact h0 w (by simp [hw]) e

theorem Facts.logdet {lg : K → K} {upL downL : Nat → NodeFac K → (Nat → K) → Nat → K} {st : FSt K} {X : Data R} (hF : Facts R shift lg upL downL st X)
    (H : HSS R) (hW : Nested R W) (hlg : LogLike lg) {ord : Nat → List Nat} (ho : Order R ord) :
    (AllM R W shift).det ≠ 0 ∧ st.logdet = lg (AllM R W shift).det := by
  obtain ⟨δ, hδ, hl⟩ := hF.det
  obtain ⟨L, hP, e⟩ := hl hlg
  have hmem : ∀ v ∈ L, v < R.arr.nNode := fun v hv => List.mem_range.1 (hP.mem_iff.1 hv)
  have hδ0 : ∀ v ∈ L, δ v ≠ 0 := fun v hv h => by have := hδ v (hmem v hv); rw [h, mul_zero] at this; exact zero_ne_one this
  have hA := eliminated hF.ok H hW (upNodes_topo ho H) (fun v hv => hF.elim v ((upNodes_mem ho H).1 hv)) (fun v hv => (upNodes_mem ho H).2 hv)
  have hdet := congrArg Matrix.det hA
  rw [Matrix.det_mul, Matrix.det_mul, Matrix.det_one] at hdet
  have hG := det_G hF.ok H (L := upNodes R ord) (fun v hv => (upNodes_mem ho H).1 hv)
  have hperm : (upNodes R ord).Perm L := by
    refine List.Perm.trans ?_ hP.symm
    rw [List.perm_ext_iff_of_nodup (upNodes_topo ho H).nodup List.nodup_range]
    intro v
    rw [upNodes_mem ho H, List.mem_range]
  have hprod : ((upNodes R ord).map fun v => (X.g v).det * (X.h v).det).prod * (L.map δ).prod = 1 := by
    rw [(hperm.map _).prod_eq]
    clear hP hperm e
    induction L with
    | nil => simp
    | cons v L ih =>
      rw [List.map_cons, List.map_cons, List.prod_cons, List.prod_cons]
      have i := ih (fun w hw => hmem w (by simp [hw])) (fun w hw => hδ0 w (by simp [hw]))
      have j := hδ v (hmem v (by simp))
      rw [mul_mul_mul_comm, i, mul_one]
      exact j
  rw [← hG] at hprod
  have hA0 : (AllM R W shift).det = (L.map δ).prod := by
    have hne : (X.G (upNodes R ord)).det * (X.H (upNodes R ord)).det ≠ 0 := left_ne_zero_of_mul_eq_one hprod
    apply mul_left_cancel₀ hne
    rw [hprod, ← hdet]
    ring
  refine ⟨fun h => ?_, ?_⟩
  · rw [h] at hdet
    simp at hdet
  · rw [e, hlg.prod δ L hδ0, hA0]

end

end H2Pack.ULV
