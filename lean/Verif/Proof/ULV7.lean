import Verif.Proof.ULV6

/-! # The loop over the nodes of the factorizations -/

set_option linter.unusedSectionVars false

namespace H2Pack.ULV
open Matrix
open H2Pack.MV
open H2Pack.Part (Arr kids ClusterTree Desc)

section
variable {K : Type} [Field K]

/-- Sizes of what a node's step produces. -/
structure Shape (step root : Mat K → Mat K → Step K) : Prop where
  um : ∀ tU tD, ∃ e, (step tU tD).um = some ⟨tU.ncol, tU.ncol, e⟩
  dm : ∀ tU tD, ∃ e, (step tU tD).dm = some ⟨tU.ncol, tU.ncol, e⟩
  ls : ∀ tU tD, (step tU tD).ls = tU.ncol
  nrow : ∀ tU tD, (step tU tD).l.nrow = tU.nrow
  rootLs : ∀ tU tD, (root tU tD).ls = 0
  rootNrow : ∀ tU tD, (root tU tD).l.nrow = tU.nrow

theorem lu_shape (Lp : Lapack K) (lg : K → K) : Shape (luStep Lp lg) (luRoot Lp lg) :=
  ⟨fun _ _ => ⟨_, rfl⟩, fun _ _ => ⟨_, rfl⟩, fun _ _ => rfl, fun _ _ => rfl, fun _ _ => rfl, fun _ _ => rfl⟩

theorem chol_shape (Lp : Lapack K) (lg : K → K) : Shape (cholStep Lp lg) (cholRoot Lp lg) :=
  ⟨fun _ _ => ⟨_, rfl⟩, fun _ _ => ⟨_, rfl⟩, fun _ _ => rfl, fun _ _ => rfl, fun _ _ => rfl, fun _ _ => rfl⟩

/-- Number of positions of a node. -/
def mm (R : Rep K) (v : Nat) : Nat := if R.arr.nChild v = 0 then R.rowE v - R.rowS v else off R v (R.arr.nChild v)

/-- The results for a node. -/
structure NodeH (K : Type) where
  fac : NodeFac K
  um : Mat K
  dm : Mat K
  ld : K

/-- What the assembled matrices are. -/
structure Asm (R : Rep K) (shift : K) (Hs : Nat → NodeH K) (v : Nat) (tU tD : Mat K) : Prop where
  nrow : tU.nrow = mm R v
  ncol : 1 ≤ R.arr.level v → tU.ncol = (R.U v).ncol
  nrowD : tD.nrow = mm R v
  leafD : ∀ i < R.arr.nLeaf, R.leaf i = v → ∀ a < mm R v, ∀ b < mm R v, tD.e a b = (R.D i).e a b + if a = b then shift else 0
  leafU : R.arr.nChild v = 0 → tU = R.U v
  innerD : ∀ k < R.arr.nChild v, ∀ l < R.arr.nChild v, ∀ a < (R.U (kid R v k)).ncol, ∀ b < (R.U (kid R v l)).ncol,
    tD.e (off R v k + a) (off R v l + b) = tDval R v (fun c => (Hs c).um) (fun c => (Hs c).dm) k l a b
  innerU : 1 ≤ R.arr.level v → ∀ k < R.arr.nChild v, ∀ a < (R.U (kid R v k)).ncol, ∀ c,
    tU.e (off R v k + a) c = ∑ d ∈ Finset.range (R.U (kid R v k)).ncol, (Hs (kid R v k)).um.e a d * (R.U v).e (off R v k + d) c

/-- What the rows of a node's positions are. -/
structure IdxOk (R : Rep K) (Hs : Nat → NodeH K) (v : Nat) (idx : List Nat) : Prop where
  len : idx.length = mm R v
  leaf : R.arr.nChild v = 0 → ∀ k < mm R v, idx.getD k 0 = R.rowS v + k
  inner : ∀ k < R.arr.nChild v, ∀ a < (R.U (kid R v k)).ncol, idx.getD (off R v k + a) 0 = (Hs (kid R v k)).fac.idx.getD a 0

variable (step root : Mat K → Mat K → Step K) (R : Rep K) (shift : K)

/-- Step 2 for a node. -/
def stepAt (v : Nat) (tU tD : Mat K) : Step K := if 0 < R.arr.level v then step tU tD else root tU tD

/-- A node has been handled. -/
def NodeSpec (Hs : Nat → NodeH K) (v : Nat) : Prop :=
  ∃ tU tD idx, Asm R shift Hs v tU tD ∧ IdxOk R Hs v idx ∧ (stepAt step root R v tU tD).info = 0 ∧
    Hs v = ⟨(stepAt step root R v tU tD).toFac idx, deref (stepAt step root R v tU tD).um, deref (stepAt step root R v tU tD).dm, (stepAt step root R v tU tD).ld⟩

variable {step root R shift}

theorem tDval_congr {v : Nat} {Hs Hs' : Nat → NodeH K} (h : ∀ c ∈ kids R.arr v, Hs c = Hs' c) {k l : Nat} (hk : k < R.arr.nChild v) (hl : l < R.arr.nChild v)
    (a b : Nat) : tDval R v (fun c => (Hs c).um) (fun c => (Hs c).dm) k l a b = tDval R v (fun c => (Hs' c).um) (fun c => (Hs' c).dm) k l a b := by
  unfold tDval
  dsimp only
  rw [h _ (kid_mem hk), h _ (kid_mem hl)]

theorem Asm.congr {v : Nat} {Hs Hs' : Nat → NodeH K} (h : ∀ c ∈ kids R.arr v, Hs c = Hs' c) {tU tD : Mat K} (ha : Asm R shift Hs v tU tD) :
    Asm R shift Hs' v tU tD := by
  refine ⟨ha.nrow, ha.ncol, ha.nrowD, ha.leafD, ha.leafU, ?_, ?_⟩
  · intro k hk l hl a ha' b hb
    rw [ha.innerD k hk l hl a ha' b hb, tDval_congr h hk hl]
  · intro hl k hk a ha' c
    rw [ha.innerU hl k hk a ha' c, h _ (kid_mem hk)]

theorem IdxOk.congr {v : Nat} {Hs Hs' : Nat → NodeH K} (h : ∀ c ∈ kids R.arr v, Hs c = Hs' c) {idx : List Nat} (hi : IdxOk R Hs v idx) :
    IdxOk R Hs' v idx := by
  refine ⟨hi.len, hi.leaf, ?_⟩
  intro k hk a ha
  rw [hi.inner k hk a ha, h _ (kid_mem hk)]

theorem NodeSpec.congr {v : Nat} {Hs Hs' : Nat → NodeH K} (h : ∀ c ∈ kids R.arr v, Hs c = Hs' c) (hv : Hs v = Hs' v)
    (hn : NodeSpec step root R shift Hs v) : NodeSpec step root R shift Hs' v := by
  obtain ⟨tU, tD, idx, h1, h2, h3, h4⟩ := hn
  exact ⟨tU, tD, idx, h1.congr h, h2.congr h, h3, hv ▸ h4⟩

/-- The state after the nodes of a list. -/
structure Inv (step root : Mat K → Mat K → Step K) (R : Rep K) (shift : K) (Hs : Nat → NodeH K) (L : List Nat) (st : FSt K) : Prop where
  node : ∀ v ∈ L, NodeSpec step root R shift Hs v
  fac : ∀ v ∈ L, st.fac v = some (Hs v).fac
  mid : ∀ v ∈ L, 1 ≤ R.arr.level v → (∀ w ∈ L, v ∉ kids R.arr w) → st.um v = some (Hs v).um ∧ st.dm v = some (Hs v).dm
  ld : st.logdet = (L.map fun v => (Hs v).ld).sum

/-- Sizes of the intermediate matrices. -/
theorem NodeSpec.size (hS : Shape step root) {Hs : Nat → NodeH K} {v : Nat} (h : NodeSpec step root R shift Hs v) (hl : 1 ≤ R.arr.level v) :
    (Hs v).um.nrow = (R.U v).ncol ∧ (Hs v).um.ncol = (R.U v).ncol ∧ (Hs v).dm.nrow = (R.U v).ncol ∧ (Hs v).dm.ncol = (R.U v).ncol := by
  obtain ⟨tU, tD, idx, h1, h2, h3, h4⟩ := h
  rw [h4]
  unfold stepAt
  rw [if_pos (show 0 < R.arr.level v by omega)]
  obtain ⟨e, he⟩ := hS.um tU tD
  obtain ⟨e', he'⟩ := hS.dm tU tD
  rw [he, he']
  simp only [deref, Option.getD_some, h1.ncol hl, and_self]

theorem mem_leaf_iff (H : HSS R) {i v : Nat} (hi : i < R.arr.nLeaf) (e : R.leaf i = v) : R.arr.nChild v = 0 := by
  rw [← e]; exact (mem_leaf H.wf hi).2

/-- Assembling succeeds. -/
theorem assemble_ok (H : HSS R) {getB getD : Nat → Nat → Option (Blk K)} (hb : Blocks R getB getD) {Hs : Nat → NodeH K} {v : Nat} (hv : v < R.arr.nNode)
    {um dm : Nat → Option (Mat K)} (hm : Mids R v um dm (fun c => (Hs c).um) (fun c => (Hs c).dm)) :
    ∃ tU tD, assemble R getB getD shift (R.arr.level v) um dm v = .ok (tU, tD) ∧ Asm R shift Hs v tU tD := by
  by_cases h0 : R.arr.nChild v = 0
  · obtain ⟨i, hi, rfl⟩ := leaf_surj H.wf hv h0
    obtain ⟨tD, e, hl, hs, hd, he⟩ := assemble_leaf H um dm hb shift hi
    have hmm : mm R (R.leaf i) = R.rowE (R.leaf i) - R.rowS (R.leaf i) := by unfold mm; rw [if_pos h0]
    refine ⟨_, tD, e, ?_, fun _ => rfl, ?_, ?_, fun _ => rfl, ?_, ?_⟩
    · rw [hmm]; exact hs
    · rw [hmm]; exact hd
    · intro j hj e a ha b hb
      have := (H2Pack.Part.leaf_inj H.wf.tree).2.2 j hj i hi e
      subst this
      rw [hmm] at ha hb
      exact he a ha b hb
    · intro k hk; omega
    · intro _ k hk; omega
  · obtain ⟨tU, tD, e, h1, h2, h3, h4, h5⟩ := assemble_inner hm H hv h0 hb shift
    have hmm : mm R v = off R v (R.arr.nChild v) := by unfold mm; rw [if_neg h0]
    refine ⟨tU, tD, e, by rw [hmm]; exact h1, h2, by rw [hmm]; exact h3, ?_, fun h => absurd h h0, h4, h5⟩
    intro i hi e
    exact absurd (mem_leaf_iff H hi e) h0

theorem flatMap_at (len : Nat → Nat) (f : Nat → List Nat) : ∀ (l : List Nat), (∀ x ∈ l, (f x).length = len x) →
    (l.flatMap f).length = (∑ j ∈ Finset.range l.length, len (l.getD j 0)) ∧
    ∀ k < l.length, ∀ a < len (l.getD k 0), (l.flatMap f).getD ((∑ j ∈ Finset.range k, len (l.getD j 0)) + a) 0 = (f (l.getD k 0)).getD a 0 := by
  intro l
  induction l with
  | nil => intro _; exact ⟨by simp, fun k hk => by simp at hk⟩
  | cons x l ih =>
    intro h
    have hx := h x (by simp)
    obtain ⟨i1, i2⟩ := ih (fun y hy => h y (by simp [hy]))
    have split : ∀ n, (∑ j ∈ Finset.range (n + 1), len ((x :: l).getD j 0)) = len x + ∑ j ∈ Finset.range n, len (l.getD j 0) := by
      intro n
      rw [Finset.sum_range_succ', add_comm]
      simp
    refine ⟨?_, ?_⟩
    · rw [List.flatMap_cons, List.length_append, hx, i1, List.length_cons, split]
    · intro k hk a ha
      rw [List.flatMap_cons]
      cases k with
      | zero =>
        have ha' : a < (f x).length := by rw [hx]; simpa using ha
        simp only [Finset.range_zero, Finset.sum_empty, Nat.zero_add]
        rw [show (x :: l).getD 0 0 = x by simp]
        simp [List.getD, List.getElem?_append_left ha']
      | succ k =>
        have hk' : k < l.length := by simpa using hk
        have ha' : a < len (l.getD k 0) := by simpa using ha
        rw [split, show (x :: l).getD (k + 1) 0 = l.getD k 0 by simp, ← i2 k hk' a ha']
        unfold List.getD
        rw [List.getElem?_append_right (by rw [hx]; omega), hx]
        congr 2
        omega

theorem nodeIdx_ok (hS : Shape step root) (H : HSS R) {Hs : Nat → NodeH K} {st : FSt K} {v : Nat} (hv : v < R.arr.nNode)
    (hf : ∀ c ∈ kids R.arr v, st.fac c = some (Hs c).fac) (hm : Mids R v st.um st.dm (fun c => (Hs c).um) (fun c => (Hs c).dm))
    (hlen : ∀ c ∈ kids R.arr v, (R.U c).ncol ≤ (Hs c).fac.idx.length) : IdxOk R Hs v (nodeIdx R st v) := by
  unfold nodeIdx
  by_cases h0 : R.arr.nChild v = 0
  · rw [if_pos h0]
    have hmm : mm R v = R.rowE v - R.rowS v := by unfold mm; rw [if_pos h0]
    refine ⟨by rw [hmm]; simp, fun _ k hk => ?_, fun k hk => by omega⟩
    rw [hmm] at hk
    simp [List.getD, hk]
  · rw [if_neg h0]
    have hmm : mm R v = off R v (R.arr.nChild v) := by unfold mm; rw [if_neg h0]
    have hF := flatMap_at (fun c => (R.U c).ncol) (fun c => (List.range (deref (st.dm c)).nrow).map fun l => ((st.fac c).map fun f => f.idx.getD l 0).getD 0)
      (kids R.arr v) (by
        intro c hc
        rw [(hm.dm c hc).1]
        simp [deref, (hm.dm c hc).2.1])
    rw [length_kids] at hF
    refine ⟨by rw [hF.1, hmm]; rfl, fun h => absurd h h0, ?_⟩
    intro k hk a ha
    have h2 := hF.2 k hk a ha
    refine Eq.trans h2 ?_
    change List.getD (List.map (fun l => ((st.fac (kid R v k)).map fun f => f.idx.getD l 0).getD 0) (List.range (deref (st.dm (kid R v k))).nrow)) a 0 = _
    have hc := kid_mem (R := R) hk
    rw [(hm.dm _ hc).1, hf _ hc]
    simp only [deref, Option.getD_some]
    rw [(hm.dm _ hc).2.1]
    simp [List.getD, ha]

theorem loop_snoc {σ α : Type} (f : σ → α → Res σ) (l : List α) (x : α) (s : σ) :
    loop f (l ++ [x]) s = (do let t ← loop f l s; f t x) := by
  induction l generalizing s with
  | nil =>
    simp only [List.nil_append]
    change (do let t ← f s x; Res.ok t) = f s x
    cases f s x <;> rfl
  | cons y l ih =>
    simp only [List.cons_append, loop]
    cases f s y with
    | ok t => exact ih t
    | ub => rfl
    | diverge => rfl

theorem kill_other {α : Type} (l : List Nat) (f : Nat → Option α) {c : Nat} (h : c ∉ l) : (l.foldl (fun f c => Function.update f c none) f) c = f c := by
  induction l generalizing f with
  | nil => rfl
  | cons x l ih =>
    rw [List.foldl_cons, ih _ (fun h' => h (by simp [h'])), Function.update_of_ne (fun e => h (by simp [e]))]

/-- What is known when the factorization has failed: the nodes handled before, and the node that failed. -/
def Failed (step root : Mat K → Mat K → Step K) (R : Rep K) (shift : K) : Prop :=
  ∃ (Hs : Nat → NodeH K) (L : List Nat) (v : Nat) (tU tD : Mat K), Topo R L ∧ v < R.arr.nNode ∧ v ∉ L ∧ (∀ c ∈ kids R.arr v, c ∈ L) ∧
    (∀ u ∈ L, NodeSpec step root R shift Hs u) ∧ Asm R shift Hs v tU tD ∧ (stepAt step root R v tU tD).info ≠ 0 ∧
    ∃ idx, IdxOk R Hs v idx

/-- The factorization loop. -/
theorem factor_loop (hS : Shape step root) (H : HSS R) {getB getD : Nat → Nat → Option (Blk K)} (hb : Blocks R getB getD)
    (P : List (Nat × Nat)) (hT : Topo R (P.map Prod.snd)) (hP : ∀ x ∈ P, x.1 = R.arr.level x.2) :
    ∃ st, loop (fun st (x : Nat × Nat) => facNode step root R getB getD shift x.1 st x.2) P FSt.init = .ok st ∧
      (st.ok = true → ∃ Hs, Inv step root R shift Hs (P.map Prod.snd) st) ∧ (st.ok = false → Failed step root R shift) := by
  induction P using List.reverseRecOn with
  | nil =>
    refine ⟨FSt.init, rfl, fun _ => ⟨fun _ => ⟨⟨0, [], 0, fun _ => 0, ⟨0, 0, fun _ _ => 0⟩, ⟨0, 0, fun _ _ => 0⟩⟩, ⟨0, 0, fun _ _ => 0⟩, ⟨0, 0, fun _ _ => 0⟩, 0⟩, ?_⟩, ?_⟩
    · exact ⟨by simp, by simp, by simp, rfl⟩
    · intro h; simp [FSt.init] at h
  | append_singleton P x ih =>
    obtain ⟨lvl, v⟩ := x
    rw [List.map_append, List.map_singleton] at hT ⊢
    have hlvl : lvl = R.arr.level v := hP (lvl, v) (by simp)
    subst hlvl
    generalize hL : P.map Prod.snd = L at *
    have hT' : Topo R L ∧ v < R.arr.nNode ∧ v ∉ L ∧ (∀ c ∈ kids R.arr v, c ∈ L) := by
      generalize hM : L ++ [v] = M at hT
      cases hT with
      | nil => simp at hM
      | snoc h1 h2 h3 h4 =>
        obtain ⟨e1, e2⟩ := List.append_inj' hM rfl
        have e2 : v = _ := (List.cons.inj e2).1
        subst e1 e2
        exact ⟨h1, h2, h3, h4⟩
    obtain ⟨hTL, hv, hvL, hk⟩ := hT'
    obtain ⟨st, hst, hok, hbad⟩ := ih hTL (fun x hx => hP x (by simp [hx]))
    rw [loop_snoc, hst]
    change ∃ st', facNode step root R getB getD shift (R.arr.level v) st v = .ok st' ∧ _
    unfold facNode
    by_cases hsok : st.ok = false
    · rw [if_pos hsok]
      exact ⟨st, rfl, fun h => (by simp [hsok] at h), fun _ => hbad hsok⟩
    · rw [if_neg hsok]
      obtain ⟨Hs, inv⟩ := hok (by simpa using hsok)
      have hnokid : ∀ c ∈ kids R.arr v, ∀ w ∈ L, c ∉ kids R.arr w := by
        intro c hc w hw hcw
        have e1 := H.wf.tree.parentOfChild v hv c hc
        have e2 := H.wf.tree.parentOfChild w (hTL.lt w hw) c hcw
        have : v = w := by rw [e1] at e2; exact_mod_cast e2
        exact hvL (this ▸ hw)
      have hlev : ∀ c ∈ kids R.arr v, 1 ≤ R.arr.level c := fun c hc => by have := H.wf.tree.childLevel v hv c hc; omega
      have hmids : Mids R v st.um st.dm (fun c => (Hs c).um) (fun c => (Hs c).dm) := by
        constructor
        · intro c hc
          have sz := (inv.node c (hk c hc)).size hS (hlev c hc)
          exact ⟨(inv.mid c (hk c hc) (hlev c hc) (hnokid c hc)).1, sz.1, sz.2.1⟩
        · intro c hc
          have sz := (inv.node c (hk c hc)).size hS (hlev c hc)
          exact ⟨(inv.mid c (hk c hc) (hlev c hc) (hnokid c hc)).2, sz.2.2⟩
      obtain ⟨tU, tD, hasm, hA⟩ := assemble_ok (shift := shift) H hb hv hmids
      have hidx : IdxOk R Hs v (nodeIdx R st v) := nodeIdx_ok hS H hv (fun c hc => inv.fac c (hk c hc)) hmids (by
        intro c hc
        obtain ⟨tU', tD', idx', a1, a2, _, a4⟩ := inv.node c (hk c hc)
        rw [a4]
        change _ ≤ idx'.length
        rw [a2.len, ← a1.nrow]
        have hcn := H.wf.tree.kid_lt hv hc
        have htall := H.tall c hcn (hlev c hc)
        have : tU'.nrow = (R.U c).nrow := by
          rw [a1.nrow]
          unfold mm
          by_cases h0 : R.arr.nChild c = 0
          · rw [if_pos h0, H.wf.uLeaf c hcn (by rw [H.min]; exact hlev c hc) h0]
          · rw [if_neg h0, H.wf.uInner c hcn (by rw [H.min]; exact hlev c hc) h0]
        omega)
      rw [hasm]
      change ∃ st', (if (stepAt step root R v tU tD).info ≠ 0 then _ else if (nodeIdx R st v).length = (stepAt step root R v tU tD).l.nrow then _ else _) = Res.ok st' ∧ _
      by_cases hinfo : (stepAt step root R v tU tD).info ≠ 0
      · rw [if_pos hinfo]
        refine ⟨_, rfl, fun h => by simp at h, fun _ => ?_⟩
        exact ⟨Hs, L, v, tU, tD, hTL, hv, hvL, hk, inv.node, hA, hinfo, _, hidx⟩
      · rw [if_neg hinfo]
        push Not at hinfo
        have hnrow : (stepAt step root R v tU tD).l.nrow = mm R v := by
          unfold stepAt
          split
          · rw [hS.nrow, hA.nrow]
          · rw [hS.rootNrow, hA.nrow]
        rw [if_pos (by rw [hidx.len, hnrow])]
        refine ⟨_, rfl, fun _ => ?_, fun h => by simp at h⟩
        let s := stepAt step root R v tU tD
        refine ⟨Function.update Hs v ⟨s.toFac (nodeIdx R st v), deref s.um, deref s.dm, s.ld⟩, ?_⟩
        have agree : ∀ u ∈ L, Hs u = Function.update Hs v ⟨s.toFac (nodeIdx R st v), deref s.um, deref s.dm, s.ld⟩ u := by
          intro u hu
          rw [Function.update_of_ne (fun e : u = v => hvL (by rw [← e]; exact hu))]
        have hvk : v ∉ kids R.arr v := fun h => by have := H.wf.tree.childLt v hv v h; omega
        refine ⟨?_, ?_, ?_, ?_⟩
        · intro u hu
          rcases List.mem_append.1 hu with hu | hu
          · exact (inv.node u hu).congr (fun c hc => agree c (hTL.closed u hu c hc)) (agree u hu)
          · rw [List.mem_singleton.1 hu]
            refine ⟨tU, tD, nodeIdx R st v, hA.congr (fun c hc => agree c (hk c hc)), hidx.congr (fun c hc => agree c (hk c hc)), hinfo, ?_⟩
            rw [Function.update_self]
        · intro u hu
          rcases List.mem_append.1 hu with hu | hu
          · rw [← agree u hu]
            change Function.update st.fac v _ u = _
            rw [Function.update_of_ne (fun e : u = v => hvL (by rw [← e]; exact hu))]
            exact inv.fac u hu
          · rw [List.mem_singleton.1 hu, Function.update_self]
            change Function.update st.fac v _ v = _
            rw [Function.update_self]
            rfl
        · intro u hu hl hfr
          have hku : u ∉ kids R.arr v := hfr v (by simp)
          show (kids R.arr v).foldl (fun f c => Function.update f c none) (Function.update st.um v s.um) u = _ ∧
            (kids R.arr v).foldl (fun f c => Function.update f c none) (Function.update st.dm v s.dm) u = _
          rw [kill_other _ _ hku, kill_other _ _ hku]
          rcases List.mem_append.1 hu with hu | hu
          · have hne : u ≠ v := fun e => hvL (by rw [← e]; exact hu)
            rw [← agree u hu, Function.update_of_ne hne, Function.update_of_ne hne]
            exact inv.mid u hu hl (fun w hw => hfr w (by simp [hw]))
          · have e : u = v := List.mem_singleton.1 hu
            subst e
            rw [Function.update_self, Function.update_self, Function.update_self]
            have hs : s = step tU tD := by
              show stepAt step root R u tU tD = _
              unfold stepAt
              rw [if_pos (show 0 < R.arr.level u by omega)]
            obtain ⟨e1, he1⟩ := hS.um tU tD
            obtain ⟨e2, he2⟩ := hS.dm tU tD
            change s.um = some (deref s.um) ∧ s.dm = some (deref s.dm)
            rw [hs, he1, he2]
            exact ⟨rfl, rfl⟩
        · change st.logdet + s.ld = _
          rw [List.map_append, List.sum_append, inv.ld]
          congr 1
          · congr 1
            apply List.map_congr_left
            intro u hu
            rw [agree u hu]
          · simp [Function.update_self]

end

end H2Pack.ULV
