import Verif.Proof.ULV11

/-! # Positive definite matrices: no node fails -/

set_option linter.unusedSectionVars false

namespace H2Pack.ULV
open Matrix
open H2Pack.MV
open H2Pack.Part (Arr kids ClusterTree Desc)

section
variable {K : Type} [Field K] (step root : Mat K → Mat K → Step K) (R : Rep K) (shift : K)

/-- What the step of a node leaves, whether or not it succeeded. -/
def NodeSpec0 (Hs : Nat → NodeH K) (v : Nat) : Prop :=
  ∃ tU tD idx, Asm R shift Hs v tU tD ∧ IdxOk R Hs v idx ∧
    Hs v = ⟨(stepAt step root R v tU tD).toFac idx, deref (stepAt step root R v tU tD).um, deref (stepAt step root R v tU tD).dm, (stepAt step root R v tU tD).ld⟩

variable {step root R shift}

theorem NodeSpec.weak {Hs : Nat → NodeH K} {v : Nat} (h : NodeSpec step root R shift Hs v) : NodeSpec0 step root R shift Hs v := by
  obtain ⟨tU, tD, idx, h1, h2, _, h4⟩ := h
  exact ⟨tU, tD, idx, h1, h2, h4⟩

theorem NodeSpec0.congr {v : Nat} {Hs Hs' : Nat → NodeH K} (h : ∀ c ∈ kids R.arr v, Hs c = Hs' c) (hv : Hs v = Hs' v)
    (hn : NodeSpec0 step root R shift Hs v) : NodeSpec0 step root R shift Hs' v := by
  obtain ⟨tU, tD, idx, h1, h2, h4⟩ := hn
  exact ⟨tU, tD, idx, h1.congr h, h2.congr h, hv ▸ h4⟩

theorem NodeSpec0.size (hS : Shape step root) {Hs : Nat → NodeH K} {v : Nat} (h : NodeSpec0 step root R shift Hs v) (hl : 1 ≤ R.arr.level v) :
    (Hs v).um.nrow = (R.U v).ncol ∧ (Hs v).um.ncol = (R.U v).ncol ∧ (Hs v).dm.nrow = (R.U v).ncol ∧ (Hs v).dm.ncol = (R.U v).ncol := by
  obtain ⟨tU, tD, idx, h1, h2, h4⟩ := h
  rw [h4]
  unfold stepAt
  rw [if_pos (show 0 < R.arr.level v by omega)]
  obtain ⟨e, he⟩ := hS.um tU tD
  obtain ⟨e', he'⟩ := hS.dm tU tD
  rw [he, he']
  simp only [deref, Option.getD_some, h1.ncol hl, and_self]

/-- The results for a node whose children have been handled. -/
theorem node_exists (hS : Shape step root) (H : HSS R) {getB getD : Nat → Nat → Option (Blk K)} (hb : Blocks R getB getD) {Hs : Nat → NodeH K} {v : Nat}
    (hv : v < R.arr.nNode) (hk : ∀ c ∈ kids R.arr v, NodeSpec0 step root R shift Hs c) :
    ∃ tU tD idx, Asm R shift Hs v tU tD ∧ IdxOk R Hs v idx := by
  have hlev : ∀ c ∈ kids R.arr v, 1 ≤ R.arr.level c := fun c hc => by have := H.wf.tree.childLevel v hv c hc; omega
  have hmids : Mids R v (fun c => some (Hs c).um) (fun c => some (Hs c).dm) (fun c => (Hs c).um) (fun c => (Hs c).dm) := by
    constructor
    · intro c hc
      have sz := (hk c hc).size hS (hlev c hc)
      exact ⟨rfl, sz.1, sz.2.1⟩
    · intro c hc
      have sz := (hk c hc).size hS (hlev c hc)
      exact ⟨rfl, sz.2.2⟩
  obtain ⟨tU, tD, _, hA⟩ := assemble_ok (shift := shift) H hb hv hmids
  refine ⟨tU, tD, _, hA, nodeIdx_ok (st := ⟨fun c => some (Hs c).fac, fun c => some (Hs c).um, fun c => some (Hs c).dm, true, 0⟩) hS H hv (fun c _ => rfl) hmids ?_⟩
  intro c hc
  obtain ⟨tU', tD', idx', a1, a2, a4⟩ := hk c hc
  rw [a4]
  change _ ≤ idx'.length
  rw [a2.len, ← nn_kid H.wf hv hc]
  exact nn_le_mm H (H.wf.tree.kid_lt hv hc)

/-- The results of the nodes handled so far can be continued to all nodes. -/
theorem extend (hS : Shape step root) (H : HSS R) {getB getD : Nat → Nat → Option (Blk K)} (hb : Blocks R getB getD) {Hs : Nat → NodeH K} {L : List Nat}
    (hcl : ∀ v ∈ L, ∀ c ∈ kids R.arr v, c ∈ L) (hn : ∀ v ∈ L, NodeSpec0 step root R shift Hs v) :
    ∃ Hs', (∀ v ∈ L, Hs' v = Hs v) ∧ ∀ v < R.arr.nNode, NodeSpec0 step root R shift Hs' v := by
  have key : ∀ n, n ≤ R.arr.nNode → ∃ Hs', (∀ v ∈ L, Hs' v = Hs v) ∧ ∀ v < n, NodeSpec0 step root R shift Hs' v := by
    intro n
    induction n with
    | zero => intro _; exact ⟨Hs, fun _ _ => rfl, fun v hv => absurd hv (by omega)⟩
    | succ n ih =>
      intro hnn
      obtain ⟨Hs', h1, h2⟩ := ih (by omega)
      by_cases hL : n ∈ L
      · refine ⟨Hs', h1, fun v hv => ?_⟩
        by_cases e : v = n
        · subst e
          exact (hn v hL).congr (fun c hc => (h1 c (hcl v hL c hc)).symm) (h1 v hL).symm
        · exact h2 v (by omega)
      · have hkn : ∀ v ≤ n, ∀ c ∈ kids R.arr v, c < n := by
          intro v hv c hc
          have := H.wf.tree.childLt v (by omega) c hc
          omega
        obtain ⟨tU, tD, idx, hA, hI⟩ := node_exists (Hs := Hs') (shift := shift) hS H hb (v := n) (by omega) (fun c hc => h2 c (hkn n le_rfl c hc))
        refine ⟨Function.update Hs' n ⟨(stepAt step root R n tU tD).toFac idx, deref (stepAt step root R n tU tD).um, deref (stepAt step root R n tU tD).dm,
          (stepAt step root R n tU tD).ld⟩, fun v hv => ?_, fun v hv => ?_⟩
        · rw [Function.update_of_ne (fun e : v = n => hL (e ▸ hv)), h1 v hv]
        · have hag : ∀ c ∈ kids R.arr v, Hs' c = Function.update Hs' n ⟨(stepAt step root R n tU tD).toFac idx, deref (stepAt step root R n tU tD).um,
              deref (stepAt step root R n tU tD).dm, (stepAt step root R n tU tD).ld⟩ c := by
            intro c hc
            have := hkn v (by omega) c hc
            rw [Function.update_of_ne (by omega)]
          by_cases e : v = n
          · subst e
            exact ⟨tU, tD, idx, hA.congr hag, hI.congr hag, by rw [Function.update_self]⟩
          · exact (h2 v (by omega)).congr hag (by rw [Function.update_of_ne e])
  exact key _ le_rfl

/-- What is assembled is determined by the results of the children. -/
theorem asm_unique (H : HSS R) {Hs : Nat → NodeH K} {v : Nat} (hv : v < R.arr.nNode) {tU tD tU' tD' : Mat K} (h1 : Asm R shift Hs v tU tD) (h2 : Asm R shift Hs v tU' tD')
    {a b : Nat} (ha : a < mm R v) (hb : b < mm R v) : tD.e a b = tD'.e a b := by
  by_cases h0 : R.arr.nChild v = 0
  · obtain ⟨i, hi, rfl⟩ := leaf_surj H.wf hv h0
    rw [h1.leafD i hi rfl a ha b hb, h2.leafD i hi rfl a ha b hb]
  · have hmm : mm R v = off R v (R.arr.nChild v) := by unfold mm; rw [if_neg h0]
    rw [hmm] at ha hb
    obtain ⟨k, hk, a, ha', rfl⟩ := off_find R v _ a ha
    obtain ⟨l, hl, b, hb', rfl⟩ := off_find R v _ b hb
    rw [h1.innerD k hk l hl a ha' b hb', h2.innerD k hk l hl a ha' b hb']

/-- The data of the elimination, for given operators. -/
def mkData (R : Rep K) (Hs : Nat → NodeH K) (tU tD : Nat → Mat K)
    (g h : ∀ v, Matrix (Ix (nn R v) (mm R v - nn R v)) (Ix (nn R v) (mm R v - nn R v)) K) : Data R :=
  ⟨fun v => mm R v - nn R v, fun v k => (Hs v).fac.idx.getD k 0, fun v => (tU v).e, fun v => (tD v).e, fun v => (Hs v).um.e, fun v => (Hs v).dm.e, g, h⟩

theorem mkData_ok (H : HSS R) {Hs : Nat → NodeH K} {tU tD : Nat → Mat K}
    {g h : ∀ v, Matrix (Ix (nn R v) (mm R v - nn R v)) (Ix (nn R v) (mm R v - nn R v)) K}
    (hA : ∀ v < R.arr.nNode, Asm R shift Hs v (tU v) (tD v)) (hI : ∀ v < R.arr.nNode, IdxOk R Hs v (Hs v).fac.idx) :
    (mkData R Hs tU tD g h).Ok shift := by
  have hdd : ∀ v < R.arr.nNode, nn R v + (mm R v - nn R v) = mm R v := fun v hv => by have := nn_le_mm H hv; omega
  have hnk : ∀ v < R.arr.nNode, ∀ k < R.arr.nChild v, nn R (kid R v k) = (R.U (kid R v k)).ncol := fun v hv k hk => nn_kid H.wf hv (kid_mem hk)
  constructor
  · intro v hv h0
    show nn R v + (mm R v - nn R v) = _
    rw [hdd v hv]; unfold mm; rw [if_pos h0]
  · intro v hv h0 k hk
    have hk : k < nn R v + (mm R v - nn R v) := hk
    rw [hdd v hv] at hk
    exact (hI v hv).leaf h0 k hk
  · intro i hi a ha b hb
    have hv := (mem_leaf H.wf hi).1
    have ha : a < nn R (R.leaf i) + (mm R (R.leaf i) - nn R (R.leaf i)) := ha
    have hb : b < nn R (R.leaf i) + (mm R (R.leaf i) - nn R (R.leaf i)) := hb
    rw [hdd _ hv] at ha hb
    exact (hA _ hv).leafD i hi rfl a ha b hb
  · intro v hv h0 a _ c _
    show (tU v).e a c = _
    rw [(hA v hv).leafU h0]
  · intro v hv h0
    show nn R v + (mm R v - nn R v) = _
    rw [hdd v hv]; unfold mm; rw [if_neg h0]
  · intro v hv k hk a ha
    rw [hnk v hv k hk] at ha
    exact (hI v hv).inner k hk a ha
  · intro v hv k hk l hl a ha b hb
    have e := (hA v hv).innerD k hk l hl a (by rw [← hnk v hv k hk]; exact ha) b (by rw [← hnk v hv l hl]; exact hb)
    unfold tDval at e
    rw [← hnk v hv k hk, ← hnk v hv l hl] at e
    exact e
  · intro v hv hl k hk a ha c _
    have e := (hA v hv).innerU hl k hk a (by rw [← hnk v hv k hk]; exact ha) c
    rw [← hnk v hv k hk] at e
    exact e

variable {X : Data R} {W : Nat → Nat → Nat → K}

/-- The operators of the nodes handled so far keep the rows of every other node apart. -/
theorem G_commute (hX : X.Ok shift) (H : HSS R) {u : Nat} (hu : u < R.arr.nNode) : ∀ {L : List Nat}, (∀ w ∈ L, w < R.arr.nNode) →
    (∀ w ∈ L, ¬ Desc R.arr u w ∨ u = w) → Pm R u * X.G L = X.G L * Pm R u := by
  intro L
  induction L using List.reverseRecOn with
  | nil => intro _ _; simp [Data.G]
  | append_singleton L w ih =>
    intro hlt hd
    have ih' := ih (fun x hx => hlt x (by simp [hx])) (fun x hx => hd x (by simp [hx]))
    have hw := hlt w (by simp)
    have hPE := hX.P_E H hw
    have hEP : (X.E w)ᵀ * Pm R w = (X.E w)ᵀ := by
      have := congrArg Matrix.transpose hPE
      rw [Matrix.transpose_mul, Pm_T] at this
      exact this
    have hc : Pm R u * X.gl w = X.gl w * Pm R u := by
      by_cases hdis : ∀ r, InRow R w r → InRow R u r → False
      · have z1 : (X.E w)ᵀ * Pm R u = 0 := disj_left hX H hw hdis _ (P_P u)
        have z2 : Pm R u * X.E w = 0 := by
          have := congrArg Matrix.transpose z1
          rw [Matrix.transpose_mul, Pm_T, Matrix.transpose_transpose, Matrix.transpose_zero] at this
          exact this
        exact (fix_lift _ z2).trans (lift_fix _ z1).symm
      · push Not at hdis
        obtain ⟨r, h1, h2, _⟩ := hdis
        have hdesc : Desc R.arr w u := by
          rcases comparable H.wf hw hu h1 h2 with d | d
          · exact d
          · rcases hd w (by simp) with hh | hh
            · exact absurd d hh
            · rw [hh]; exact .refl _
        have hsub : Pm R u * Pm R w = Pm R w := by
          ext r q
          rw [Pm_mul]
          by_cases h : InRow R u r
          · rw [if_pos h]
          · rw [if_neg h]
            unfold Pm
            rw [if_neg]
            rintro ⟨_, h3⟩
            exact h (row_desc H.wf hu hdesc h3)
        have e1 : Pm R u * X.E w = X.E w := by rw [← hPE, ← Matrix.mul_assoc, hsub]
        have e2 : (X.E w)ᵀ * Pm R u = (X.E w)ᵀ := by
          have := congrArg Matrix.transpose e1
          rw [Matrix.transpose_mul, Pm_T] at this
          exact this
        show Pm R u * (1 + X.E w * (X.g w - 1) * (X.E w)ᵀ) = (1 + X.E w * (X.g w - 1) * (X.E w)ᵀ) * Pm R u
        rw [Matrix.mul_add, Matrix.add_mul, Matrix.mul_one, Matrix.one_mul, Matrix.mul_assoc _ (X.E w)ᵀ, e2, ← Matrix.mul_assoc, ← Matrix.mul_assoc, e1]
    rw [G_snoc, ← Matrix.mul_assoc, hc, Matrix.mul_assoc, ih', Matrix.mul_assoc]

theorem Am_eq (u : Nat) : Am R W shift u = Pm R u * AllM R W shift * Pm R u := by
  ext r q
  rw [mul_Pm]
  unfold Am
  by_cases h2 : InRow R u q
  · rw [if_pos h2, Pm_mul]
    by_cases h1 : InRow R u r
    · rw [if_pos h1, if_pos ⟨h1, h2⟩]; rfl
    · rw [if_neg h1, if_neg (fun e => h1 e.1)]
  · rw [if_neg h2, if_neg (fun e => h2 e.2)]

theorem H_eq_GT (hh : ∀ v, X.h v = (X.g v)ᵀ) (L : List Nat) : X.H L = (X.G L)ᵀ := by
  induction L using List.reverseRecOn with
  | nil => simp [Data.G, Data.H]
  | append_singleton L v ih =>
    rw [G_snoc, H_snoc, Matrix.transpose_mul, ih]
    congr 1
    show lift _ _ (X.h v) = (lift _ _ (X.g v))ᵀ
    rw [lift_transpose, hh]

theorem det_G_ne (hX : X.Ok shift) (H : HSS R) {L : List Nat} (hL : ∀ v ∈ L, v < R.arr.nNode) (hd : ∀ v ∈ L, (X.g v).det ≠ 0) : (X.G L).det ≠ 0 := by
  induction L using List.reverseRecOn with
  | nil => simp [Data.G]
  | append_singleton L v ih =>
    have hv := hL v (by simp)
    rw [G_snoc, Matrix.det_mul]
    have e1 : (X.gl v).det = (X.g v).det := det_lift (hX.ixf_inj H hv) (hX.ixf_lt H hv) _
    rw [e1]
    exact mul_ne_zero (hd v (by simp)) (ih (fun w hw => hL w (by simp [hw])) (fun w hw => hd w (by simp [hw])))

end

section
variable {R : Rep ℝ} {shift : ℝ} {W : Nat → Nat → Nat → ℝ} {X : Data R}

/-- What is assembled at a node when the nodes below it have been handled is positive definite. -/
theorem ready_pd (hX : X.Ok shift) (H : HSS R) (hW : Nested R W) (hP : (AllM R W shift).PosDef) (hh : ∀ v, X.h v = (X.g v)ᵀ) {L : List Nat} (hT : Topo R L)
    (he : ∀ v ∈ L, X.Elim v) (hd : ∀ v ∈ L, (X.g v).det ≠ 0) {u : Nat} (hu : u < R.arr.nNode) (huL : u ∉ L) (hk : ∀ c ∈ kids R.arr u, c ∈ L) :
    (mat (nn R u) (X.dd u) (X.tD u)).PosDef := by
  have hinv := invariant hX H hW hT he
  have hr : Ready X W shift (X.G L) (X.H L) u := by
    by_cases h0 : R.arr.nChild u = 0
    · have := hinv.2 u hu h0 huL
      exact ready_leaf hX H hW hu h0 this.1 this.2
    · apply ready_inner hX H hW hu h0
      intro c hc
      apply hinv.1 c (hk c hc)
      intro w hw hcw
      have e1 := H.wf.tree.parentOfChild u hu c hc
      have e2 := H.wf.tree.parentOfChild w (hT.lt w hw) c hcw
      have : u = w := by rw [e1] at e2; exact_mod_cast e2
      exact huL (this ▸ hw)
  have horth : (X.E u)ᵀ * X.E u = 1 := sel_orth (hX.ixf_inj H hu) (hX.ixf_lt H hu)
  have hPE := hX.P_E H hu
  have hcom : Pm R u * X.G L = X.G L * Pm R u := G_commute hX H hu hT.lt (fun w hw => .inl (fun d => huL (hT.desc d hw)))
  have hcomT : Pm R u * (X.G L)ᵀ = (X.G L)ᵀ * Pm R u := by
    have := congrArg Matrix.transpose hcom
    rw [Matrix.transpose_mul, Matrix.transpose_mul, Pm_T] at this
    exact this.symm
  have hm := hr.main
  rw [H_eq_GT hh, Am_eq] at hm
  have hB : Pm R u * ((X.G L)ᵀ * X.E u) = (X.G L)ᵀ * X.E u := by rw [← Matrix.mul_assoc, hcomT, Matrix.mul_assoc, hPE]
  have hBT : ((X.E u)ᵀ * X.G L) * Pm R u = (X.E u)ᵀ * X.G L := by
    have := congrArg Matrix.transpose hB
    simp only [Matrix.transpose_mul, Pm_T, Matrix.transpose_transpose] at this
    exact this
  have e1 : (X.E u)ᵀ * (X.G L * (Pm R u * AllM R W shift * Pm R u) * (X.G L)ᵀ) * X.E u = ((X.G L)ᵀ * X.E u)ᵀ * AllM R W shift * ((X.G L)ᵀ * X.E u) := by
    calc (X.E u)ᵀ * (X.G L * (Pm R u * AllM R W shift * Pm R u) * (X.G L)ᵀ) * X.E u
        = ((X.E u)ᵀ * X.G L * Pm R u) * AllM R W shift * (Pm R u * ((X.G L)ᵀ * X.E u)) := by simp only [Matrix.mul_assoc]
      _ = _ := by rw [hB, hBT, Matrix.transpose_mul, Matrix.transpose_transpose]
  have e2 : (X.E u)ᵀ * (X.E u * mat (nn R u) (X.dd u) (X.tD u) * (X.E u)ᵀ + (Pm R u - X.E u * (X.E u)ᵀ)) * X.E u = mat (nn R u) (X.dd u) (X.tD u) := by
    have a1 : (X.E u)ᵀ * (X.E u * mat (nn R u) (X.dd u) (X.tD u) * (X.E u)ᵀ) * X.E u = mat (nn R u) (X.dd u) (X.tD u) := by
      calc (X.E u)ᵀ * (X.E u * mat (nn R u) (X.dd u) (X.tD u) * (X.E u)ᵀ) * X.E u
          = ((X.E u)ᵀ * X.E u) * mat (nn R u) (X.dd u) (X.tD u) * ((X.E u)ᵀ * X.E u) := by simp only [Matrix.mul_assoc]
        _ = _ := by rw [horth, Matrix.one_mul, Matrix.mul_one]
    have a2 : (X.E u)ᵀ * (Pm R u - X.E u * (X.E u)ᵀ) * X.E u = 0 := by
      rw [Matrix.mul_sub, Matrix.sub_mul, Matrix.mul_assoc, hPE, horth, ← Matrix.mul_assoc, horth, Matrix.one_mul, horth, sub_self]
    rw [Matrix.mul_add, Matrix.add_mul, a1, a2, add_zero]
  rw [← e2, ← hm, e1]
  have hu' : IsUnit (X.G L)ᵀ.det := by rw [Matrix.det_transpose]; exact isUnit_iff_ne_zero.2 (det_G_ne hX H hT.lt hd)
  apply posDef_conj hP (C := (X.E u)ᵀ * ((X.G L)ᵀ)⁻¹)
  rw [Matrix.mul_assoc, ← Matrix.mul_assoc _ (X.G L)ᵀ, Matrix.nonsing_inv_mul _ hu', Matrix.one_mul, horth]

/-- No node fails. -/
theorem pd_not_failed {step root : Mat ℝ → Mat ℝ → Step ℝ} (hS : Shape step root) (hp : PDok step root) (H : HSS R) (hW : Nested R W)
    {getB getD : Nat → Nat → Option (Blk ℝ)} (hb : Blocks R getB getD) (hP : (AllM R W shift).PosDef) : ¬ Failed step root R shift := by
  rintro ⟨Hs, L, v, tUv, tDv, hT, hv, hvL, hk, hn, hAv, hbad, idx, hI⟩
  obtain ⟨Hs', hag, hall⟩ := extend (shift := shift) hS H hb hT.closed (fun u hu => (hn u hu).weak)
  have hA' : ∀ u, ∃ tU tD idx, u < R.arr.nNode → Asm R shift Hs' u tU tD ∧ IdxOk R Hs' u idx ∧
      Hs' u = ⟨(stepAt step root R u tU tD).toFac idx, deref (stepAt step root R u tU tD).um, deref (stepAt step root R u tU tD).dm, (stepAt step root R u tU tD).ld⟩ := by
    intro u
    by_cases hu : u < R.arr.nNode
    · obtain ⟨tU, tD, idx, q⟩ := hall u hu
      exact ⟨tU, tD, idx, fun _ => q⟩
    · exact ⟨⟨0, 0, fun _ _ => 0⟩, ⟨0, 0, fun _ _ => 0⟩, [], fun h => absurd h hu⟩
  choose tU tD ix hq using hA'
  have hg : ∀ u, ∃ g : Matrix (Ix (nn R u) (mm R u - nn R u)) (Ix (nn R u) (mm R u - nn R u)) ℝ, u < R.arr.nNode → 1 ≤ R.arr.level u →
      (mat (nn R u) (mm R u - nn R u) (tD u).e).PosDef → g.det ≠ 0 ∧
      g * mat (nn R u) (mm R u - nn R u) (tD u).e * gᵀ = fromBlocks (mf _ _ (Hs' u).dm.e) 0 0 1 ∧ BasisOk (nn R u) (mm R u - nn R u) (tU u).e (Hs' u).um.e g gᵀ := by
    intro u
    by_cases hu : u < R.arr.nNode ∧ 1 ≤ R.arr.level u ∧ (mat (nn R u) (mm R u - nn R u) (tD u).e).PosDef
    · obtain ⟨h1, h2, h3⟩ := hu
      have hle := nn_le_mm H h1
      obtain ⟨_, g, hg⟩ := hp.step (tU u) (tD u) (nn R u) (mm R u - nn R u) (by rw [(hq u h1).1.ncol h2, nn_pos h2]) (by rw [(hq u h1).1.nrow]; omega) h3
      refine ⟨g, fun _ _ _ => ?_⟩
      have hst : stepAt step root R u (tU u) (tD u) = step (tU u) (tD u) := by unfold stepAt; rw [if_pos (show 0 < R.arr.level u by omega)]
      rw [(hq u h1).2.2, hst]
      exact hg
    · exact ⟨0, fun h1 h2 h3 => absurd ⟨h1, h2, h3⟩ hu⟩
  choose g hg using hg
  have hX : (mkData R Hs' tU tD g fun u => (g u)ᵀ).Ok shift := mkData_ok H (fun u hu => (hq u hu).1) (fun u hu => by
    have := (hq u hu).2.1
    rw [(hq u hu).2.2]
    exact this)
  have hlevL : ∀ u ∈ L, 1 ≤ R.arr.level u := by
    intro u hu
    by_contra h0
    have hroot := level_zero H (hT.lt u hu) (by omega)
    apply hvL
    apply hT.desc _ hu
    rw [hroot]
    exact H.wf.tree.desc_root hv
  have main : ∀ {M : List Nat}, Topo R M → (∀ u ∈ M, u ∈ L) → ∀ u ∈ M, (mkData R Hs' tU tD g fun u => (g u)ᵀ).Elim u ∧ (g u).det ≠ 0 := by
    intro M hM
    induction hM with
    | nil => simp
    | @snoc M w hTM hw hwM hkM ih =>
      intro hML
      have ih' := ih (fun u hu => hML u (by simp [hu]))
      intro u hu
      rcases List.mem_append.1 hu with hu | hu
      · exact ih' u hu
      · have e := List.mem_singleton.1 hu
        subst e
        have hpd := ready_pd hX H hW hP (fun _ => rfl) hTM (fun x hx => (ih' x hx).1) (fun x hx => (ih' x hx).2) hw hwM hkM
        have := hg u hw (hlevL u (hML u (by simp))) hpd
        exact ⟨⟨this.2.1, fun _ => this.2.2⟩, this.1⟩
  have hm := main hT (fun _ h => h)
  have hpd := ready_pd hX H hW hP (fun _ => rfl) hT (fun x hx => (hm x hx).1) (fun x hx => (hm x hx).2) hv hvL hk
  have hA1 := (hq v hv).1
  have hA2 : Asm R shift Hs' v tUv tDv := hAv.congr (fun c hc => (hag c (hk c hc)).symm)
  have hle := nn_le_mm H hv
  have hDe : mat (nn R v) (mm R v - nn R v) tDv.e = mat (nn R v) (mm R v - nn R v) (tD v).e := by
    ext i j
    have hi : pos i < mm R v := lt_of_lt_of_eq (pos_lt i) (by omega)
    have hj : pos j < mm R v := lt_of_lt_of_eq (pos_lt j) (by omega)
    exact asm_unique H hv hA2 hA1 hi hj
  have hpd' : (mat (nn R v) (mm R v - nn R v) tDv.e).PosDef := by rw [hDe]; exact hpd
  apply hbad
  unfold stepAt
  by_cases hl : 0 < R.arr.level v
  · rw [if_pos hl]
    exact (hp.step tUv tDv (nn R v) (mm R v - nn R v) (by rw [hA2.ncol hl, nn_pos hl]) (by rw [hA2.nrow]; omega) hpd').1
  · rw [if_neg hl]
    have h0 : nn R v = 0 := by unfold nn; rw [if_pos (by omega)]
    rw [h0, Nat.sub_zero] at hpd'
    exact hp.root tUv tDv (mm R v) hA2.nrow hpd'

end

end H2Pack.ULV
