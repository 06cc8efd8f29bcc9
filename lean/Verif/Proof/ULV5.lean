import Verif.Proof.ULV4

/-! # The elimination turns the matrix into the identity -/

set_option linter.unusedSectionVars false

namespace H2Pack.ULV
open Matrix
open H2Pack.MV
open H2Pack.Part (Arr kids ClusterTree Desc)

section
variable {K : Type} [Field K] {R : Rep K} {X : Data R} {shift : K} {W : Nat → Nat → Nat → K}

/-- The state of the elimination at a node whose parent has not been handled. -/
structure Done (X : Data R) (W : Nat → Nat → Nat → K) (shift : K) (G Hh : Matrix (Fin R.size) (Fin R.size) K) (c : Nat) : Prop where
  left : 1 ≤ R.arr.level c → G * Wm R W c = X.E1 c * mf _ _ (X.um c)
  right : 1 ≤ R.arr.level c → Hhᵀ * Wm R W c = X.E1 c * mf _ _ (X.um c)
  main : G * Am R W shift c * Hh = X.E1 c * mf _ _ (X.dm c) * (X.E1 c)ᵀ + (Pm R c - X.E1 c * (X.E1 c)ᵀ)

/-- The same before the node is handled. -/
structure Ready (X : Data R) (W : Nat → Nat → Nat → K) (shift : K) (G Hh : Matrix (Fin R.size) (Fin R.size) K) (v : Nat) : Prop where
  left : 1 ≤ R.arr.level v → G * Wm R W v = X.E v * colm (nn R v) (X.dd v) (nn R v) (X.tU v)
  right : 1 ≤ R.arr.level v → Hhᵀ * Wm R W v = X.E v * colm (nn R v) (X.dd v) (nn R v) (X.tU v)
  main : G * Am R W shift v * Hh = X.E v * mat (nn R v) (X.dd v) (X.tD v) * (X.E v)ᵀ + (Pm R v - X.E v * (X.E v)ᵀ)

theorem ready_leaf (hX : X.Ok shift) (H : HSS R) (hW : Nested R W) {v : Nat} (hv : v < R.arr.nNode) (h0 : R.arr.nChild v = 0)
    {G Hh : Matrix (Fin R.size) (Fin R.size) K} (h1 : G * Pm R v = Pm R v) (h2 : Pm R v * Hh = Pm R v) : Ready X W shift G Hh v := by
  have h2' : Hhᵀ * Pm R v = Pm R v := by
    have := congrArg Matrix.transpose h2
    rw [Matrix.transpose_mul, Pm_T] at this
    exact this
  refine ⟨fun hl => ?_, fun hl => ?_, ?_⟩
  · rw [← P_W H hW hv hl, ← Matrix.mul_assoc, h1, P_W H hW hv hl, hX.leaf_W H hW hv h0 hl]
  · rw [← P_W H hW hv hl, ← Matrix.mul_assoc, h2', P_W H hW hv hl, hX.leaf_W H hW hv h0 hl]
  · rw [hX.leaf_P H hv h0, sub_self, add_zero, ← hX.leaf_A H hW hv h0, ← P_A v (R := R) (W := W) (shift := shift)]
    rw [← Matrix.mul_assoc, ← Matrix.mul_assoc, h1, Matrix.mul_assoc _ (Pm R v) Hh, h2]

theorem ready_inner (hX : X.Ok shift) (H : HSS R) (hW : Nested R W) {v : Nat} (hv : v < R.arr.nNode) (h0 : R.arr.nChild v ≠ 0)
    {G Hh : Matrix (Fin R.size) (Fin R.size) K} (hd : ∀ c ∈ kids R.arr v, Done X W shift G Hh c) : Ready X W shift G Hh v := by
  have lev : ∀ k ∈ Finset.range (R.arr.nChild v), 1 ≤ R.arr.level (kid R v k) := by
    intro k hk; have := H.wf.tree.childLevel v hv _ (kid_mem (Finset.mem_range.1 hk)); omega
  have hdk : ∀ k ∈ Finset.range (R.arr.nChild v), Done X W shift G Hh (kid R v k) := fun k hk => hd _ (kid_mem (Finset.mem_range.1 hk))
  have e1 : ∀ k ∈ Finset.range (R.arr.nChild v), X.E1 (kid R v k) = X.E v * X.J v k := fun k hk => hX.E1_eq H hv (Finset.mem_range.1 hk)
  refine ⟨fun hl => ?_, fun hl => ?_, ?_⟩
  · rw [W_kids H hW hv h0 hl, hX.tU_eq H hv h0 hl, Matrix.mul_sum, Matrix.mul_sum]
    apply Finset.sum_congr rfl
    intro k hk
    rw [← Matrix.mul_assoc, (hdk k hk).left (lev k hk), e1 k hk]
    simp only [Matrix.mul_assoc]
  · rw [W_kids H hW hv h0 hl, hX.tU_eq H hv h0 hl, Matrix.mul_sum, Matrix.mul_sum]
    apply Finset.sum_congr rfl
    intro k hk
    rw [← Matrix.mul_assoc, (hdk k hk).right (lev k hk), e1 k hk]
    simp only [Matrix.mul_assoc]
  · have hEE : X.E v * (X.E v)ᵀ = ∑ k ∈ Finset.range (R.arr.nChild v), X.E1 (kid R v k) * (X.E1 (kid R v k))ᵀ := by
      have : X.E v * (X.E v)ᵀ = X.E v * (1 : Matrix (Ix (nn R v) (X.dd v)) (Ix (nn R v) (X.dd v)) K) * (X.E v)ᵀ := by rw [Matrix.mul_one]
      rw [this, ← hX.J_one H hv h0, Matrix.mul_sum, Matrix.sum_mul]
      apply Finset.sum_congr rfl
      intro k hk
      rw [e1 k hk, Matrix.transpose_mul]
      simp only [Matrix.mul_assoc]
    have hD : X.E v * mat (nn R v) (X.dd v) (X.tD v) * (X.E v)ᵀ =
        ∑ k ∈ Finset.range (R.arr.nChild v), X.E1 (kid R v k) * mf _ _ (X.dm (kid R v k)) * (X.E1 (kid R v k))ᵀ +
        ∑ k ∈ Finset.range (R.arr.nChild v), ∑ l ∈ Finset.range (R.arr.nChild v),
          (X.E1 (kid R v k) * mf (nn R (kid R v k)) (nn R (kid R v k)) (X.um (kid R v k))) * Bm R v k l * (X.E1 (kid R v l) * mf (nn R (kid R v l)) (nn R (kid R v l)) (X.um (kid R v l)))ᵀ := by
      rw [hX.tD_eq H hv h0, Matrix.mul_add, Matrix.add_mul, Matrix.mul_sum, Matrix.sum_mul, Matrix.mul_sum, Matrix.sum_mul]
      congr 1
      · apply Finset.sum_congr rfl
        intro k hk
        rw [e1 k hk, Matrix.transpose_mul]
        simp only [Matrix.mul_assoc]
      · apply Finset.sum_congr rfl
        intro k hk
        rw [Matrix.mul_sum, Matrix.sum_mul]
        apply Finset.sum_congr rfl
        intro l hl
        rw [e1 k hk, e1 l hl, Matrix.transpose_mul, Matrix.transpose_mul]
        simp only [Matrix.mul_assoc]
    have hA : G * Am R W shift v * Hh = ∑ k ∈ Finset.range (R.arr.nChild v), G * Am R W shift (kid R v k) * Hh +
        ∑ k ∈ Finset.range (R.arr.nChild v), ∑ l ∈ Finset.range (R.arr.nChild v), (G * Wm R W (kid R v k)) * Bm R v k l * (Hhᵀ * Wm R W (kid R v l))ᵀ := by
      rw [A_kids H hW hv h0, Matrix.mul_add, Matrix.add_mul, Matrix.mul_sum, Matrix.sum_mul, Matrix.mul_sum, Matrix.sum_mul]
      congr 1
      apply Finset.sum_congr rfl
      intro k hk
      rw [Matrix.mul_sum, Matrix.sum_mul]
      apply Finset.sum_congr rfl
      intro l hl
      rw [Matrix.transpose_mul, Matrix.transpose_transpose]
      simp only [Matrix.mul_assoc]
    have hA1 : ∑ k ∈ Finset.range (R.arr.nChild v), G * Am R W shift (kid R v k) * Hh =
        ∑ k ∈ Finset.range (R.arr.nChild v), X.E1 (kid R v k) * mf _ _ (X.dm (kid R v k)) * (X.E1 (kid R v k))ᵀ +
        (Pm R v - X.E v * (X.E v)ᵀ) := by
      rw [hEE, P_kids H hv h0, ← Finset.sum_sub_distrib, ← Finset.sum_add_distrib]
      apply Finset.sum_congr rfl
      intro k hk
      rw [(hdk k hk).main]
    have hA2 : ∑ k ∈ Finset.range (R.arr.nChild v), ∑ l ∈ Finset.range (R.arr.nChild v), (G * Wm R W (kid R v k)) * Bm R v k l * (Hhᵀ * Wm R W (kid R v l))ᵀ =
        ∑ k ∈ Finset.range (R.arr.nChild v), ∑ l ∈ Finset.range (R.arr.nChild v),
          (X.E1 (kid R v k) * mf (nn R (kid R v k)) (nn R (kid R v k)) (X.um (kid R v k))) * Bm R v k l * (X.E1 (kid R v l) * mf (nn R (kid R v l)) (nn R (kid R v l)) (X.um (kid R v l)))ᵀ := by
      apply Finset.sum_congr rfl
      intro k hk
      apply Finset.sum_congr rfl
      intro l hl
      rw [(hdk k hk).left (lev k hk), (hdk l hl).right (lev l hl)]
    rw [hA, hA1, hA2, hD]
    abel

/-- The operators of a node. -/
def Data.gl (X : Data R) (v : Nat) : Matrix (Fin R.size) (Fin R.size) K := lift R.size (X.ixf v) (X.g v)
def Data.hl (X : Data R) (v : Nat) : Matrix (Fin R.size) (Fin R.size) K := lift R.size (X.ixf v) (X.h v)

theorem E_cols (v : Nat) : X.E v = fromCols (X.E1 v) (Sel K R.size (fun i : Fin (X.dd v) => X.ix v (nn R v + i))) := by
  ext r i
  rcases i with i | i <;> rfl

theorem done_of_ready (hX : X.Ok shift) (H : HSS R) {v : Nat} (hv : v < R.arr.nNode) (he : X.Elim v)
    {G Hh : Matrix (Fin R.size) (Fin R.size) K} (hr : Ready X W shift G Hh v) : Done X W shift (X.gl v * G) (Hh * X.hl v) v := by
  have hinj := hX.ixf_inj H hv
  have hlt := hX.ixf_lt H hv
  have gE : X.gl v * X.E v = X.E v * X.g v := lift_mul_sel hinj hlt _
  have hE : (X.E v)ᵀ * X.hl v = X.h v * (X.E v)ᵀ := selT_mul_lift hinj hlt _
  have hTE : (X.hl v)ᵀ * X.E v = X.E v * (X.h v)ᵀ := by
    have := congrArg Matrix.transpose hE
    simpa using this
  have horth : (X.E v)ᵀ * X.E v = 1 := sel_orth hinj hlt
  have hPE := hX.P_E H hv
  have hEP : (X.E v)ᵀ * Pm R v = (X.E v)ᵀ := by
    have := congrArg Matrix.transpose hPE
    rw [Matrix.transpose_mul, Pm_T] at this
    exact this
  have z1 : (X.E v)ᵀ * (Pm R v - X.E v * (X.E v)ᵀ) = 0 := by
    rw [Matrix.mul_sub, hEP, ← Matrix.mul_assoc, horth, Matrix.one_mul, sub_self]
  have z2 : (Pm R v - X.E v * (X.E v)ᵀ) * X.E v = 0 := by
    rw [Matrix.sub_mul, hPE, Matrix.mul_assoc, horth, Matrix.mul_one, sub_self]
  have colsRows : X.E v * fromRows (mf (nn R v) (nn R v) (X.um v)) 0 = X.E1 v * mf _ _ (X.um v) := by
    rw [E_cols, Matrix.fromCols_mul_fromRows, Matrix.mul_zero, add_zero]
  refine ⟨fun hl => ?_, fun hl => ?_, ?_⟩
  · rw [Matrix.mul_assoc, hr.left hl, ← Matrix.mul_assoc, gE, Matrix.mul_assoc, (he.basis hl).left, colsRows]
  · rw [Matrix.transpose_mul, Matrix.mul_assoc, hr.right hl, ← Matrix.mul_assoc, hTE, Matrix.mul_assoc, (he.basis hl).right, colsRows]
  · have e1 : X.gl v * G * Am R W shift v * (Hh * X.hl v) = X.gl v * (G * Am R W shift v * Hh) * X.hl v := by simp only [Matrix.mul_assoc]
    have e2 : X.gl v * (Pm R v - X.E v * (X.E v)ᵀ) = Pm R v - X.E v * (X.E v)ᵀ := lift_fix _ z1
    have e3 : (Pm R v - X.E v * (X.E v)ᵀ) * X.hl v = Pm R v - X.E v * (X.E v)ᵀ := fix_lift _ z2
    have e4 : X.gl v * (X.E v * mat (nn R v) (X.dd v) (X.tD v) * (X.E v)ᵀ) * X.hl v =
        X.E v * fromBlocks (mf (nn R v) (nn R v) (X.dm v)) 0 0 1 * (X.E v)ᵀ := by
      rw [← he.elim]
      calc X.gl v * (X.E v * mat (nn R v) (X.dd v) (X.tD v) * (X.E v)ᵀ) * X.hl v
          = (X.gl v * X.E v) * mat (nn R v) (X.dd v) (X.tD v) * ((X.E v)ᵀ * X.hl v) := by simp only [Matrix.mul_assoc]
        _ = _ := by rw [gE, hE]; simp only [Matrix.mul_assoc]
    rw [e1, hr.main, Matrix.mul_add, Matrix.add_mul, e2, e3, e4, E_cols, Matrix.fromCols_mul_fromBlocks, Matrix.transpose_fromCols,
      Matrix.fromCols_mul_fromRows, Matrix.fromCols_mul_fromRows]
    simp only [Matrix.mul_zero, Matrix.mul_one, zero_add, add_zero]
    abel

/-- Nodes in an order in which children come before their parents. -/
inductive Topo (R : Rep K) : List Nat → Prop where
  | nil : Topo R []
  | snoc {L v} : Topo R L → v < R.arr.nNode → v ∉ L → (∀ c ∈ kids R.arr v, c ∈ L) → Topo R (L ++ [v])

theorem Topo.lt {L : List Nat} (h : Topo R L) : ∀ v ∈ L, v < R.arr.nNode := by
  induction h with
  | nil => simp
  | snoc _ hv _ _ ih =>
    intro u hu
    rcases List.mem_append.1 hu with h | h
    · exact ih u h
    · rw [List.mem_singleton.1 h]; exact hv

theorem Topo.closed {L : List Nat} (h : Topo R L) : ∀ v ∈ L, ∀ c ∈ kids R.arr v, c ∈ L := by
  induction h with
  | nil => simp
  | snoc _ _ _ hk ih =>
    intro u hu c hc
    rcases List.mem_append.1 hu with h | h
    · exact List.mem_append_left _ (ih u h c hc)
    · rw [List.mem_singleton.1 h] at hc
      exact List.mem_append_left _ (hk c hc)

theorem Topo.desc {L : List Nat} (h : Topo R L) {u v : Nat} (d : Desc R.arr u v) (hv : v ∈ L) : u ∈ L := by
  induction d with
  | refl => exact hv
  | step hc _ ih => exact ih (h.closed _ hv _ hc)

theorem desc_parent {A : Arr K} {c v : Nat} (d : Desc A c v) (hne : c ≠ v) : ∃ p, c ∈ kids A p ∧ Desc A p v := by
  induction d with
  | refl => exact absurd rfl hne
  | @step c' v' hc d ih =>
    by_cases e : c = c'
    · subst e
      exact ⟨v', hc, .refl _⟩
    · obtain ⟨p, h1, h2⟩ := ih e
      exact ⟨p, h1, .step hc h2⟩

/-- The product of the operators applied so far. -/
def Data.G (X : Data R) (L : List Nat) : Matrix (Fin R.size) (Fin R.size) K := L.foldl (fun G v => X.gl v * G) 1
def Data.H (X : Data R) (L : List Nat) : Matrix (Fin R.size) (Fin R.size) K := L.foldl (fun Hh v => Hh * X.hl v) 1

theorem G_snoc (L : List Nat) (v : Nat) : X.G (L ++ [v]) = X.gl v * X.G L := by unfold Data.G; rw [List.foldl_append]; rfl
theorem H_snoc (L : List Nat) (v : Nat) : X.H (L ++ [v]) = X.H L * X.hl v := by unfold Data.H; rw [List.foldl_append]; rfl

/-- A node's operators do not touch what lies in the rows of an unrelated node. -/
theorem disj_left (hX : X.Ok shift) (H : HSS R) {u v : Nat} (hv : v < R.arr.nNode)
    (hd : ∀ r, InRow R v r → InRow R u r → False) {κ : Type} (M : Matrix (Fin R.size) κ K) (hM : Pm R u * M = M) : (X.E v)ᵀ * M = 0 := by
  have hEP : (X.E v)ᵀ * Pm R v = (X.E v)ᵀ := by
    have := congrArg Matrix.transpose (hX.P_E H hv)
    rw [Matrix.transpose_mul, Pm_T] at this
    exact this
  rw [← hEP, ← hM, Matrix.mul_assoc, ← Matrix.mul_assoc (Pm R v), P_disj hd, Matrix.zero_mul, Matrix.mul_zero]

theorem invariant (hX : X.Ok shift) (H : HSS R) (hW : Nested R W) {L : List Nat} (hL : Topo R L) (he : ∀ v ∈ L, X.Elim v) :
    (∀ c ∈ L, (∀ v ∈ L, c ∉ kids R.arr v) → Done X W shift (X.G L) (X.H L) c) ∧
    ∀ u < R.arr.nNode, R.arr.nChild u = 0 → u ∉ L → X.G L * Pm R u = Pm R u ∧ Pm R u * X.H L = Pm R u := by
  induction hL with
  | nil =>
    refine ⟨by simp, fun u _ _ _ => ?_⟩
    unfold Data.G Data.H
    simp
  | @snoc L v hT hv hvL hk ih =>
    replace ih := ih (fun u hu => he u (by simp [hu]))
    rw [G_snoc, H_snoc]
    have unaff : ∀ u, (∀ r, InRow R v r → InRow R u r → False) → ∀ {κ : Type} [Fintype κ] [DecidableEq κ] (M : Matrix (Fin R.size) κ K), Pm R u * M = M → X.gl v * M = M ∧ Mᵀ * X.hl v = Mᵀ ∧ (X.hl v)ᵀ * M = M := by
      intro u hd κ _ _ M hM
      have z := disj_left hX H hv hd M hM
      have z2 : Mᵀ * X.E v = 0 := by
        have := congrArg Matrix.transpose z
        simpa using this
      have f2 : Mᵀ * X.hl v = Mᵀ := fix_lift _ z2
      refine ⟨lift_fix _ z, f2, ?_⟩
      have := congrArg Matrix.transpose f2
      simpa using this
    refine ⟨fun c hc hfr => ?_, fun u hu hu0 huL => ?_⟩
    · rcases List.mem_append.1 hc with hcL | hcv
      · -- another node
        have hc_nk : c ∉ kids R.arr v := hfr v (List.mem_append_right _ (List.mem_singleton.2 rfl))
        have hfr' : ∀ v ∈ L, c ∉ kids R.arr v := fun w hw => hfr w (List.mem_append_left _ hw)
        have hd := ih.1 c hcL hfr'
        have hcn := hT.lt c hcL
        have hdis : ∀ r, InRow R v r → InRow R c r → False := by
          intro r h1 h2
          rcases comparable H.wf hv hcn h1 h2 with d | d
          · exact hvL (hT.desc d hcL)
          · have hne : c ≠ v := fun e => hvL (e ▸ hcL)
            obtain ⟨p, hp, dp⟩ := desc_parent d hne
            cases dp with
            | refl => exact hc_nk hp
            | step hm dm => exact hfr' p (hT.desc dm (hk _ hm)) hp
        have hE1 := hX.P_E1 H hcn
        obtain ⟨f1, f2, f3⟩ := unaff c hdis (X.E1 c) hE1
        obtain ⟨p1, p2, p3⟩ := unaff c hdis (Pm R c) (P_P c)
        rw [Pm_T] at p2
        refine ⟨fun hl => ?_, fun hl => ?_, ?_⟩
        · rw [Matrix.mul_assoc, hd.left hl, ← Matrix.mul_assoc, f1]
        · rw [Matrix.transpose_mul, Matrix.mul_assoc, hd.right hl, ← Matrix.mul_assoc, f3]
        · have e1 : X.gl v * X.G L * Am R W shift c * (X.H L * X.hl v) = X.gl v * (X.G L * Am R W shift c * X.H L) * X.hl v := by
            simp only [Matrix.mul_assoc]
          rw [e1, hd.main, Matrix.mul_add, Matrix.mul_sub, Matrix.add_mul, Matrix.sub_mul, p1, p2]
          rw [← Matrix.mul_assoc (X.gl v) (X.E1 c * _), ← Matrix.mul_assoc (X.gl v) (X.E1 c), f1, ← Matrix.mul_assoc (X.gl v) (X.E1 c), f1,
            Matrix.mul_assoc _ (X.E1 c)ᵀ, f2, Matrix.mul_assoc _ (X.E1 c)ᵀ, f2]
      · -- the node itself
        rw [List.mem_singleton.1 hcv]
        apply done_of_ready hX H hv (he v (by simp))
        by_cases h0 : R.arr.nChild v = 0
        · have := ih.2 v hv h0 hvL
          exact ready_leaf hX H hW hv h0 this.1 this.2
        · apply ready_inner hX H hW hv h0
          intro c hcv'
          apply ih.1 c (hk c hcv')
          intro w hw hcw
          have e1 := H.wf.tree.parentOfChild v hv c hcv'
          have e2 := H.wf.tree.parentOfChild w (hT.lt w hw) c hcw
          have : v = w := by rw [e1] at e2; exact_mod_cast e2
          exact hvL (this ▸ hw)
    · -- a leaf that has not been handled
      have huL' : u ∉ L := fun h => huL (List.mem_append_left _ h)
      have huv : u ≠ v := fun h => huL (List.mem_append_right _ (List.mem_singleton.2 h))
      have hd := ih.2 u hu hu0 huL'
      have hdis : ∀ r, InRow R v r → InRow R u r → False := by
        intro r h1 h2
        rcases comparable H.wf hv hu h1 h2 with d | d
        · exact huv (leaf_desc d hu0).symm
        · cases d with
          | refl => exact huv rfl
          | step hm dm => exact huL' (hT.desc dm (hk _ hm))
      obtain ⟨p1, p2, _⟩ := unaff u hdis (Pm R u) (P_P u)
      rw [Pm_T] at p2
      exact ⟨by rw [Matrix.mul_assoc, hd.1, p1], by rw [← Matrix.mul_assoc, hd.2, p2]⟩

/-- The whole matrix. -/
def AllM (R : Rep K) (W : Nat → Nat → Nat → K) (shift : K) : Matrix (Fin R.size) (Fin R.size) K := fun r q => shifted R W shift r q

/-- When all nodes have been handled, the matrix has become the identity. -/
theorem eliminated (hX : X.Ok shift) (H : HSS R) (hW : Nested R W) {L : List Nat} (hL : Topo R L) (he : ∀ v ∈ L, X.Elim v) (hall : ∀ v < R.arr.nNode, v ∈ L) :
    X.G L * AllM R W shift * X.H L = 1 := by
  have hne := H.wf.tree.nonempty
  have hroot : R.arr.nNode - 1 < R.arr.nNode := by omega
  have hd := (invariant hX H hW hL he).1 (R.arr.nNode - 1) (hall _ hroot) (by
    intro v hv hc
    have := H.wf.tree.childLt v (hL.lt v hv) _ hc
    have := hL.lt v hv
    omega)
  have hin : ∀ r : Fin R.size, InRow R (R.arr.nNode - 1) r := by
    intro r
    have h1 := H.wf.tree.rootS
    have h2 := H.wf.tree.rootE
    refine ⟨?_, ?_⟩
    · unfold Rep.rowS; rw [h1]; simp
    · unfold Rep.rowE; rw [h2]
      have := r.2
      unfold Rep.size at this
      rw [Nat.mul_comm]; exact this
  have hA : Am R W shift (R.arr.nNode - 1) = AllM R W shift := by
    ext r q
    unfold Am AllM
    rw [if_pos ⟨hin r, hin q⟩]
  have hP : Pm R (R.arr.nNode - 1) = 1 := by
    ext r q
    unfold Pm
    rw [Matrix.one_apply]
    by_cases e : r = q
    · rw [if_pos ⟨e, hin r⟩, if_pos e]
    · rw [if_neg (fun h => e h.1), if_neg e]
  have hn : nn R (R.arr.nNode - 1) = 0 := by unfold nn; rw [if_pos H.wf.tree.rootLevel]
  have hz : ∀ M : Matrix (Fin (nn R (R.arr.nNode - 1))) (Fin R.size) K, X.E1 (R.arr.nNode - 1) * M = 0 := by
    intro M
    ext r q
    rw [Matrix.mul_apply]
    apply Finset.sum_eq_zero
    intro i _
    exact absurd i.2 (by omega)
  rw [← hA, hd.main, Matrix.mul_assoc, hz, hz, hP]
  simp

theorem det_G (hX : X.Ok shift) (H : HSS R) {L : List Nat} (hL : ∀ v ∈ L, v < R.arr.nNode) :
    (X.G L).det * (X.H L).det = (L.map fun v => (X.g v).det * (X.h v).det).prod := by
  induction L using List.reverseRecOn with
  | nil => simp [Data.G, Data.H]
  | append_singleton L v ih =>
    have hv := hL v (by simp)
    rw [G_snoc, H_snoc, Matrix.det_mul, Matrix.det_mul, List.map_append, List.prod_append, ← ih (fun w hw => hL w (by simp [hw]))]
    have e1 : (X.gl v).det = (X.g v).det := det_lift (hX.ixf_inj H hv) (hX.ixf_lt H hv) _
    have e2 : (X.hl v).det = (X.h v).det := det_lift (hX.ixf_inj H hv) (hX.ixf_lt H hv) _
    rw [e1, e2]
    simp
    ring

end

end H2Pack.ULV
