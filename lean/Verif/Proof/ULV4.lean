import Verif.Proof.ULV3

/-! # The elimination of all nodes, one after the other -/

set_option linter.unusedSectionVars false

namespace H2Pack.ULV
open Matrix
open H2Pack.MV
open H2Pack.Part (Arr kids ClusterTree Desc)

section Sel
variable {K : Type} [Field K] {N : Nat} {ι κ : Type} [Fintype ι] [DecidableEq ι]

theorem sel_mul_at {f : ι → Nat} (hi : Function.Injective f) (M : Matrix ι κ K) (r : Fin N) (i : ι) (h : (r : Nat) = f i) (c : κ) :
    (Sel K N f * M) r c = M i c := by
  rw [Matrix.mul_apply, Finset.sum_eq_single i]
  · rw [Sel, if_pos h, one_mul]
  · intro j _ hj
    rw [Sel, if_neg (fun e => hj (hi (e.symm.trans h))), zero_mul]
  · intro h; exact absurd (Finset.mem_univ _) h

theorem sel_mul_off {f : ι → Nat} (M : Matrix ι κ K) (r : Fin N) (h : ∀ i, (r : Nat) ≠ f i) (c : κ) : (Sel K N f * M) r c = 0 := by
  rw [Matrix.mul_apply]
  apply Finset.sum_eq_zero
  intro i _
  rw [Sel, if_neg (h i), zero_mul]

theorem mul_selT_at {f : ι → Nat} (hi : Function.Injective f) (M : Matrix κ ι K) (r : Fin N) (i : ι) (h : (r : Nat) = f i) (c : κ) :
    (M * (Sel K N f)ᵀ) c r = M c i := by
  have := sel_mul_at hi Mᵀ r i h c
  rw [← Matrix.transpose_apply (M := M * (Sel K N f)ᵀ), Matrix.transpose_mul, Matrix.transpose_transpose]
  exact this

theorem mul_selT_off {f : ι → Nat} (M : Matrix κ ι K) (r : Fin N) (h : ∀ i, (r : Nat) ≠ f i) (c : κ) : (M * (Sel K N f)ᵀ) c r = 0 := by
  have := sel_mul_off Mᵀ r h c
  rw [← Matrix.transpose_apply (M := M * (Sel K N f)ᵀ), Matrix.transpose_mul, Matrix.transpose_transpose]
  exact this

end Sel

section
variable {K : Type} [Field K]

/-- Number of columns of the basis of a node; none at the root. -/
def nn (R : Rep K) (v : Nat) : Nat := if R.arr.level v = 0 then 0 else (R.U v).ncol

theorem nn_kid {R : Rep K} (h : WF R) {v c : Nat} (hv : v < R.arr.nNode) (hc : c ∈ kids R.arr v) : nn R c = (R.U c).ncol := by
  unfold nn
  rw [if_neg]
  have := h.tree.childLevel v hv c hc
  omega

theorem nn_pos {R : Rep K} {v : Nat} (h : 1 ≤ R.arr.level v) : nn R v = (R.U v).ncol := by
  unfold nn
  rw [if_neg (by omega)]

theorem off_succ (R : Rep K) (v k : Nat) : off R v (k + 1) = off R v k + (R.U (kid R v k)).ncol := Finset.sum_range_succ _ _

theorem off_mono (R : Rep K) (v : Nat) {k l : Nat} (h : k ≤ l) : off R v k ≤ off R v l := by
  induction h with
  | refl => exact le_rfl
  | step _ ih => rw [off_succ]; omega

theorem off_find (R : Rep K) (v n p : Nat) (h : p < off R v n) : ∃ k < n, ∃ a < (R.U (kid R v k)).ncol, p = off R v k + a := by
  induction n with
  | zero => simp [off] at h
  | succ n ih =>
    rw [off_succ] at h
    by_cases h1 : p < off R v n
    · obtain ⟨k, hk, a, ha, e⟩ := ih h1
      exact ⟨k, by omega, a, ha, e⟩
    · exact ⟨n, by omega, p - off R v n, by omega, by omega⟩

theorem off_unique (R : Rep K) (v : Nat) {k l a b : Nat} (ha : a < (R.U (kid R v k)).ncol) (hb : b < (R.U (kid R v l)).ncol)
    (e : off R v k + a = off R v l + b) : k = l ∧ a = b := by
  have : k = l := by
    rcases Nat.lt_trichotomy k l with h | h | h
    · have := off_mono R v (show k + 1 ≤ l from h); rw [off_succ] at this; omega
    · exact h
    · have := off_mono R v (show l + 1 ≤ k from h); rw [off_succ] at this; omega
  subst this
  exact ⟨rfl, by omega⟩

/-- The block of two children of a node. -/
def bIdx (R : Rep K) (v k l : Nat) : Nat := R.adm.idxOf (kid R v k, kid R v l)

theorem bIdx_spec {R : Rep K} (H : HSS R) {v k l : Nat} (hv : v < R.arr.nNode) (hkl : k < l) (hl : l < R.arr.nChild v) :
    ∃ h : bIdx R v k l < R.adm.length, R.adm[bIdx R v k l] = (kid R v k, kid R v l) := by
  have hm : (kid R v k, kid R v l) ∈ R.adm := (H.pairs _ _).2 ⟨v, hv, k, l, hkl, hl, rfl, rfl⟩
  exact ⟨List.idxOf_lt_length_iff.2 hm, List.getElem_idxOf _⟩

/-- The number in row `a`, column `c` of the block of two children of a node. -/
def bVal (R : Rep K) (v k l a c : Nat) : K :=
  if k < l then (R.B (bIdx R v k l)).e a c else if l < k then (R.B (bIdx R v l k)).e c a else 0

/-- What the factorization of the nodes produces. -/
structure Data (R : Rep K) where
  dd : Nat → Nat
  ix : Nat → Nat → Nat
  tU : Nat → Nat → Nat → K
  tD : Nat → Nat → Nat → K
  um : Nat → Nat → Nat → K
  dm : Nat → Nat → Nat → K
  g : ∀ v, Matrix (Ix (nn R v) (dd v)) (Ix (nn R v) (dd v)) K
  h : ∀ v, Matrix (Ix (nn R v) (dd v)) (Ix (nn R v) (dd v)) K

structure Data.Ok {R : Rep K} (X : Data R) (shift : K) : Prop where
  leafSize : ∀ v < R.arr.nNode, R.arr.nChild v = 0 → nn R v + X.dd v = R.rowE v - R.rowS v
  leafIx : ∀ v < R.arr.nNode, R.arr.nChild v = 0 → ∀ k < nn R v + X.dd v, X.ix v k = R.rowS v + k
  leafD : ∀ i < R.arr.nLeaf, ∀ a < nn R (R.leaf i) + X.dd (R.leaf i), ∀ b < nn R (R.leaf i) + X.dd (R.leaf i),
    X.tD (R.leaf i) a b = (R.D i).e a b + if a = b then shift else 0
  leafU : ∀ v < R.arr.nNode, R.arr.nChild v = 0 → ∀ a < nn R v + X.dd v, ∀ c < nn R v, X.tU v a c = (R.U v).e a c
  innerSize : ∀ v < R.arr.nNode, R.arr.nChild v ≠ 0 → nn R v + X.dd v = off R v (R.arr.nChild v)
  innerIx : ∀ v < R.arr.nNode, ∀ k < R.arr.nChild v, ∀ a < nn R (kid R v k), X.ix v (off R v k + a) = X.ix (kid R v k) a
  innerD : ∀ v < R.arr.nNode, ∀ k < R.arr.nChild v, ∀ l < R.arr.nChild v, ∀ a < nn R (kid R v k), ∀ b < nn R (kid R v l),
    X.tD v (off R v k + a) (off R v l + b) = if k = l then X.dm (kid R v k) a b else
      ∑ s ∈ Finset.range (nn R (kid R v k)), ∑ t ∈ Finset.range (nn R (kid R v l)), X.um (kid R v k) a s * bVal R v k l s t * X.um (kid R v l) b t
  innerU : ∀ v < R.arr.nNode, 1 ≤ R.arr.level v → ∀ k < R.arr.nChild v, ∀ a < nn R (kid R v k), ∀ c < nn R v,
    X.tU v (off R v k + a) c = ∑ d ∈ Finset.range (nn R (kid R v k)), X.um (kid R v k) a d * (R.U v).e (off R v k + d) c

/-- The operators of a node eliminate its positions. -/
structure Data.Elim {R : Rep K} (X : Data R) (v : Nat) : Prop where
  elim : X.g v * mat (nn R v) (X.dd v) (X.tD v) * X.h v = fromBlocks (mf (nn R v) (nn R v) (X.dm v)) 0 0 1
  basis : 1 ≤ R.arr.level v → BasisOk (nn R v) (X.dd v) (X.tU v) (X.um v) (X.g v) (X.h v)

variable {R : Rep K} (X : Data R)

/-- The rows of a node's positions; of those that are passed on to the parent; of all rows. -/
def Data.ixf (v : Nat) (i : Ix (nn R v) (X.dd v)) : Nat := X.ix v (pos i)
def Data.E (v : Nat) : Matrix (Fin R.size) (Ix (nn R v) (X.dd v)) K := Sel K R.size (X.ixf v)
def Data.E1 (v : Nat) : Matrix (Fin R.size) (Fin (nn R v)) K := Sel K R.size (fun i : Fin (nn R v) => X.ix v i)
def Pm (R : Rep K) (v : Nat) : Matrix (Fin R.size) (Fin R.size) K := fun r q => if r = q ∧ InRow R v r then 1 else 0
def Wm (R : Rep K) (W : Nat → Nat → Nat → K) (v : Nat) : Matrix (Fin R.size) (Fin (nn R v)) K := fun r c => W v r c
def Am (R : Rep K) (W : Nat → Nat → Nat → K) (shift : K) (v : Nat) : Matrix (Fin R.size) (Fin R.size) K := fun r q =>
  if InRow R v r ∧ InRow R v q then shifted R W shift r q else 0

variable {X} {shift : K} {W : Nat → Nat → Nat → K}

/-- The rows of a node's positions are different rows of the node. -/
theorem Data.Ok.ix_spec (hX : X.Ok shift) (H : HSS R) : ∀ v < R.arr.nNode,
    (∀ k < nn R v + X.dd v, InRow R v (X.ix v k)) ∧ ∀ k < nn R v + X.dd v, ∀ l < nn R v + X.dd v, X.ix v k = X.ix v l → k = l := by
  have h := H.wf
  intro v
  induction v using Nat.strong_induction_on with
  | _ v ih =>
    intro hv
    by_cases h0 : R.arr.nChild v = 0
    · have hs := hX.leafSize v hv h0
      refine ⟨fun k hk => ?_, fun k hk l hl e => ?_⟩
      · rw [hX.leafIx v hv h0 k hk]
        unfold InRow; omega
      · rw [hX.leafIx v hv h0 k hk, hX.leafIx v hv h0 l hl] at e
        omega
    · have hs := hX.innerSize v hv h0
      have find : ∀ p < nn R v + X.dd v, ∃ k < R.arr.nChild v, ∃ a < nn R (kid R v k), p = off R v k + a := by
        intro p hp
        obtain ⟨k, hk, a, ha, e⟩ := off_find R v (R.arr.nChild v) p (by omega)
        exact ⟨k, hk, a, by rw [nn_kid h hv (kid_mem hk)]; exact ha, e⟩
      have ihk := fun k hk => ih (kid R v k) (h.tree.childLt v hv _ (kid_mem hk)) (h.tree.kid_lt hv (kid_mem hk))
      refine ⟨fun p hp => ?_, fun p hp q hq e => ?_⟩
      · obtain ⟨k, hk, a, ha, rfl⟩ := find p hp
        rw [hX.innerIx v hv k hk a ha]
        exact kid_sub h hv hk ((ihk k hk).1 a (by omega))
      · obtain ⟨k, hk, a, ha, rfl⟩ := find p hp
        obtain ⟨l, hl, b, hb, rfl⟩ := find q hq
        rw [hX.innerIx v hv k hk a ha, hX.innerIx v hv l hl b hb] at e
        have h1 := (ihk k hk).1 a (by omega)
        rw [e] at h1
        have := kid_row_unique h hv hk hl h1 ((ihk l hl).1 b (by omega))
        subst this
        rw [(ihk k hk).2 a (by omega) b (by omega) e]

theorem Data.Ok.ixf_inj (hX : X.Ok shift) (H : HSS R) {v : Nat} (hv : v < R.arr.nNode) : Function.Injective (X.ixf v) := by
  intro i j e
  exact pos_inj ((hX.ix_spec H v hv).2 _ (pos_lt i) _ (pos_lt j) e)

theorem Data.Ok.ixf_row (hX : X.Ok shift) (H : HSS R) {v : Nat} (hv : v < R.arr.nNode) (i : Ix (nn R v) (X.dd v)) : InRow R v (X.ixf v i) :=
  (hX.ix_spec H v hv).1 _ (pos_lt i)

theorem Data.Ok.ixf_lt (hX : X.Ok shift) (H : HSS R) {v : Nat} (hv : v < R.arr.nNode) (i : Ix (nn R v) (X.dd v)) : X.ixf v i < R.size :=
  lt_of_lt_of_le (hX.ixf_row H hv i).2 (rowE_le_size H.wf hv)

theorem Data.Ok.ix1_inj (hX : X.Ok shift) (H : HSS R) {v : Nat} (hv : v < R.arr.nNode) : Function.Injective (fun i : Fin (nn R v) => X.ix v i) := by
  intro i j e
  exact Fin.ext ((hX.ix_spec H v hv).2 _ (by have := i.2; omega) _ (by have := j.2; omega) e)

theorem Data.Ok.ix1_row (hX : X.Ok shift) (H : HSS R) {v : Nat} (hv : v < R.arr.nNode) (i : Fin (nn R v)) : InRow R v (X.ix v i) :=
  (hX.ix_spec H v hv).1 _ (by have := i.2; omega)

theorem Pm_mul {κ : Type} (v : Nat) (M : Matrix (Fin R.size) κ K) (r : Fin R.size) (c : κ) : (Pm R v * M) r c = if InRow R v r then M r c else 0 := by
  rw [Matrix.mul_apply, Finset.sum_eq_single r]
  · unfold Pm
    by_cases h : InRow R v r
    · rw [if_pos ⟨rfl, h⟩, if_pos h, one_mul]
    · rw [if_neg (fun e => h e.2), if_neg h, zero_mul]
  · intro s _ hs
    unfold Pm
    rw [if_neg (fun e => hs e.1.symm), zero_mul]
  · intro h; exact absurd (Finset.mem_univ _) h

theorem Pm_T (v : Nat) : (Pm R v)ᵀ = Pm R v := by
  ext r q
  simp only [transpose_apply, Pm]
  by_cases e : r = q
  · subst e; rfl
  · rw [if_neg (fun h => e h.1.symm), if_neg (fun h => e h.1)]

theorem mul_Pm {κ : Type} (v : Nat) (M : Matrix κ (Fin R.size) K) (r : Fin R.size) (c : κ) : (M * Pm R v) c r = if InRow R v r then M c r else 0 := by
  have := Pm_mul v Mᵀ r c
  rw [← Matrix.transpose_apply (M := M * Pm R v), Matrix.transpose_mul, Pm_T, this]
  rfl

theorem Data.Ok.P_E (hX : X.Ok shift) (H : HSS R) {v : Nat} (hv : v < R.arr.nNode) : Pm R v * X.E v = X.E v := by
  ext r i
  rw [Pm_mul]
  by_cases h : InRow R v r
  · rw [if_pos h]
  · rw [if_neg h]
    unfold Data.E Sel
    rw [if_neg]
    intro e
    exact h (e ▸ hX.ixf_row H hv i)

theorem Data.Ok.P_E1 (hX : X.Ok shift) (H : HSS R) {v : Nat} (hv : v < R.arr.nNode) : Pm R v * X.E1 v = X.E1 v := by
  ext r i
  rw [Pm_mul]
  by_cases h : InRow R v r
  · rw [if_pos h]
  · rw [if_neg h]
    unfold Data.E1 Sel
    rw [if_neg]
    intro e
    exact h (e ▸ hX.ix1_row H hv i)

theorem P_P (v : Nat) : Pm R v * Pm R v = Pm R v := by
  ext r q
  rw [Pm_mul]
  unfold Pm
  by_cases h : InRow R v r
  · rw [if_pos h]
  · rw [if_neg h, if_neg (fun e => h e.2)]

theorem P_disj {u v : Nat} (h : ∀ r, InRow R u r → InRow R v r → False) : Pm R u * Pm R v = 0 := by
  ext r q
  rw [Pm_mul]
  unfold Pm
  by_cases h1 : InRow R u r
  · rw [if_pos h1, if_neg]
    · rfl
    · exact fun e => h r h1 e.2
  · rw [if_neg h1]; rfl

theorem P_W (H : HSS R) (hW : Nested R W) {v : Nat} (hv : v < R.arr.nNode) (hl : 1 ≤ R.arr.level v) : Pm R v * Wm R W v = Wm R W v := by
  ext r c
  rw [Pm_mul]
  by_cases h : InRow R v r
  · rw [if_pos h]
  · rw [if_neg h]
    exact (nested_zero H.wf hW v hv (by rw [H.min]; exact hl) r h c (c.2.trans_eq (nn_pos hl))).symm

theorem P_A (v : Nat) : Pm R v * Am R W shift v * Pm R v = Am R W shift v := by
  ext r q
  rw [mul_Pm]
  by_cases h2 : InRow R v q
  · rw [if_pos h2, Pm_mul]
    by_cases h1 : InRow R v r
    · rw [if_pos h1]
    · rw [if_neg h1]; unfold Am; rw [if_neg (fun e => h1 e.1)]
  · rw [if_neg h2]; unfold Am; rw [if_neg (fun e => h2 e.2)]

/-! ## Leaves -/

theorem Data.Ok.leaf_pos (hX : X.Ok shift) {v : Nat} (hv : v < R.arr.nNode) (h0 : R.arr.nChild v = 0) {r : Nat} (hr : InRow R v r) :
    ∃ i, pos i = r - R.rowS v ∧ X.ixf v i = r := by
  have hs := hX.leafSize v hv h0
  unfold InRow at hr
  obtain ⟨i, hi⟩ := pos_surj (n := nn R v) (d := X.dd v) (k := r - R.rowS v) (by omega)
  refine ⟨i, hi, ?_⟩
  unfold Data.ixf
  rw [hX.leafIx v hv h0 _ (pos_lt i), hi]
  omega

theorem Data.Ok.leaf_A (hX : X.Ok shift) (H : HSS R) (hW : Nested R W) {v : Nat} (hv : v < R.arr.nNode) (h0 : R.arr.nChild v = 0) :
    Am R W shift v = X.E v * mat (nn R v) (X.dd v) (X.tD v) * (X.E v)ᵀ := by
  have hinj := hX.ixf_inj H hv
  obtain ⟨i, hi, rfl⟩ := leaf_surj H.wf hv h0
  ext r q
  unfold Am Data.E
  by_cases h1 : InRow R (R.leaf i) r
  · by_cases h2 : InRow R (R.leaf i) q
    · rw [if_pos ⟨h1, h2⟩]
      obtain ⟨a, ha, ea⟩ := hX.leaf_pos hv h0 h1
      obtain ⟨b, hb, eb⟩ := hX.leaf_pos hv h0 h2
      rw [mul_selT_at hinj _ q b eb.symm, sel_mul_at hinj _ r a ea.symm]
      unfold mat
      rw [hX.leafD i hi _ (pos_lt a) _ (pos_lt b), ha, hb]
      unfold shifted
      rw [entry_leaf H hW hi h1 h2]
      congr 1
      unfold InRow at h1 h2
      by_cases e : (r : Nat) = q
      · rw [if_pos e, if_pos (by omega)]
      · rw [if_neg e, if_neg (by omega)]
    · rw [if_neg (fun e => h2 e.2), mul_selT_off]
      intro b e
      exact h2 (e ▸ hX.ixf_row H hv b)
  · rw [if_neg (fun e => h1 e.1), Matrix.mul_assoc, sel_mul_off]
    intro b e
    exact h1 (e ▸ hX.ixf_row H hv b)

theorem Data.Ok.leaf_W (hX : X.Ok shift) (H : HSS R) (hW : Nested R W) {v : Nat} (hv : v < R.arr.nNode) (h0 : R.arr.nChild v = 0)
    (hl : 1 ≤ R.arr.level v) : Wm R W v = X.E v * colm (nn R v) (X.dd v) (nn R v) (X.tU v) := by
  have hinj := hX.ixf_inj H hv
  ext r c
  unfold Wm Data.E
  have hc : (c : Nat) < (R.U v).ncol := c.2.trans_eq (nn_pos hl)
  rw [hW.leaf v hv (by rw [H.min]; exact hl) h0 r c hc]
  by_cases h1 : InRow R v r
  · obtain ⟨a, ha, ea⟩ := hX.leaf_pos hv h0 h1
    rw [sel_mul_at hinj _ r a ea.symm]
    unfold colm
    rw [hX.leafU v hv h0 _ (pos_lt a) _ c.2, ha]
    exact if_pos h1
  · rw [sel_mul_off]
    · exact if_neg h1
    · intro b e
      exact h1 (e ▸ hX.ixf_row H hv b)

theorem Data.Ok.leaf_P (hX : X.Ok shift) (H : HSS R) {v : Nat} (hv : v < R.arr.nNode) (h0 : R.arr.nChild v = 0) :
    X.E v * (X.E v)ᵀ = Pm R v := by
  have hinj := hX.ixf_inj H hv
  ext r q
  by_cases h1 : InRow R v r
  · obtain ⟨a, ha, ea⟩ := hX.leaf_pos hv h0 h1
    unfold Data.E
    rw [sel_mul_at hinj _ r a ea.symm, transpose_apply, Sel]
    unfold Pm
    by_cases e : r = q
    · subst e
      rw [if_pos ea.symm, if_pos ⟨rfl, h1⟩]
    · rw [if_neg (fun h => e (Fin.ext (by omega))), if_neg (fun h => e h.1)]
  · unfold Data.E Pm
    rw [sel_mul_off, if_neg (fun e => h1 e.2)]
    intro b e
    exact h1 (e ▸ hX.ixf_row H hv b)

/-! ## Nodes with children -/

/-- The positions of a node that come from child `k`. -/
def Data.J (X : Data R) (v k : Nat) : Matrix (Ix (nn R v) (X.dd v)) (Fin (nn R (kid R v k))) K := fun i a => if pos i = off R v k + a then 1 else 0

theorem J_mul_at {κ : Type} {v k : Nat} (M : Matrix (Fin (nn R (kid R v k))) κ K) {i : Ix (nn R v) (X.dd v)} {a : Fin (nn R (kid R v k))}
    (e : pos i = off R v k + a) (c : κ) : (X.J v k * M) i c = M a c := by
  rw [Matrix.mul_apply, Finset.sum_eq_single a]
  · rw [Data.J, if_pos e, one_mul]
  · intro b _ hb
    rw [Data.J, if_neg (fun e' => hb (Fin.ext (by omega))), zero_mul]
  · intro h; exact absurd (Finset.mem_univ _) h

theorem J_mul_off {κ : Type} {v k : Nat} (M : Matrix (Fin (nn R (kid R v k))) κ K) {i : Ix (nn R v) (X.dd v)}
    (e : ∀ a : Fin (nn R (kid R v k)), pos i ≠ off R v k + a) (c : κ) : (X.J v k * M) i c = 0 := by
  rw [Matrix.mul_apply]
  apply Finset.sum_eq_zero
  intro a _
  rw [Data.J, if_neg (e a), zero_mul]

theorem mul_JT_at {κ : Type} {v k : Nat} (M : Matrix κ (Fin (nn R (kid R v k))) K) {i : Ix (nn R v) (X.dd v)} {a : Fin (nn R (kid R v k))}
    (e : pos i = off R v k + a) (c : κ) : (M * (X.J v k)ᵀ) c i = M c a := by
  rw [← Matrix.transpose_apply (M := M * (X.J v k)ᵀ), Matrix.transpose_mul, Matrix.transpose_transpose, J_mul_at _ e]
  rfl

theorem mul_JT_off {κ : Type} {v k : Nat} (M : Matrix κ (Fin (nn R (kid R v k))) K) {i : Ix (nn R v) (X.dd v)}
    (e : ∀ a : Fin (nn R (kid R v k)), pos i ≠ off R v k + a) (c : κ) : (M * (X.J v k)ᵀ) c i = 0 := by
  rw [← Matrix.transpose_apply (M := M * (X.J v k)ᵀ), Matrix.transpose_mul, Matrix.transpose_transpose, J_mul_off _ e]

theorem Data.Ok.find (hX : X.Ok shift) (H : HSS R) {v : Nat} (hv : v < R.arr.nNode) (h0 : R.arr.nChild v ≠ 0) (i : Ix (nn R v) (X.dd v)) :
    ∃ k < R.arr.nChild v, ∃ a : Fin (nn R (kid R v k)), pos i = off R v k + a ∧
      ∀ l < R.arr.nChild v, l ≠ k → ∀ b : Fin (nn R (kid R v l)), pos i ≠ off R v l + b := by
  have hs := hX.innerSize v hv h0
  obtain ⟨k, hk, a, ha, e⟩ := off_find R v (R.arr.nChild v) (pos i) (by have := pos_lt i; omega)
  refine ⟨k, hk, ⟨a, by rw [nn_kid H.wf hv (kid_mem hk)]; exact ha⟩, e, ?_⟩
  intro l hl hlk b e2
  have hb : (b : Nat) < (R.U (kid R v l)).ncol := b.2.trans_eq (nn_kid H.wf hv (kid_mem hl))
  exact hlk (off_unique R v hb ha (e2.symm.trans e)).1

theorem Data.Ok.E1_eq (hX : X.Ok shift) (H : HSS R) {v k : Nat} (hv : v < R.arr.nNode) (hk : k < R.arr.nChild v) :
    X.E1 (kid R v k) = X.E v * X.J v k := by
  ext r a
  rw [Matrix.mul_apply]
  have h0 : R.arr.nChild v ≠ 0 := by omega
  have hs := hX.innerSize v hv h0
  have hlt : off R v k + a < nn R v + X.dd v := by
    have := a.2.trans_eq (nn_kid H.wf hv (kid_mem hk))
    have h2 := off_mono R v (show k + 1 ≤ R.arr.nChild v from hk)
    rw [off_succ] at h2
    omega
  obtain ⟨i, hi⟩ := pos_surj hlt
  rw [Finset.sum_eq_single i]
  · unfold Data.E1 Data.E Sel Data.J
    rw [if_pos hi, mul_one]
    unfold Data.ixf
    rw [hi, hX.innerIx v hv k hk a a.2]
  · intro j _ hj
    unfold Data.J
    rw [if_neg (fun e => hj (pos_inj (e.trans hi.symm))), mul_zero]
  · intro h; exact absurd (Finset.mem_univ _) h

/-- The transfer matrix rows of child `k`. -/
def Ub (R : Rep K) (v k : Nat) : Matrix (Fin (nn R (kid R v k))) (Fin (nn R v)) K := fun d c => (R.U v).e (off R v k + d) c

def Bm (R : Rep K) (v k l : Nat) : Matrix (Fin (nn R (kid R v k))) (Fin (nn R (kid R v l))) K := fun a c => bVal R v k l a c

theorem Data.Ok.J_one (hX : X.Ok shift) (H : HSS R) {v : Nat} (hv : v < R.arr.nNode) (h0 : R.arr.nChild v ≠ 0) :
    ∑ k ∈ Finset.range (R.arr.nChild v), X.J v k * (X.J v k)ᵀ = 1 := by
  ext i j
  rw [Matrix.sum_apply]
  obtain ⟨k, hk, a, ea, ho⟩ := hX.find H hv h0 i
  rw [Finset.sum_eq_single k, J_mul_at _ ea, transpose_apply, Data.J, Matrix.one_apply]
  · by_cases e : i = j
    · subst e; rw [if_pos ea, if_pos rfl]
    · rw [if_neg e, if_neg (fun h => e (pos_inj (ea.trans h.symm)))]
  · intro l hl hlk
    exact J_mul_off _ (ho l (Finset.mem_range.1 hl) hlk) _
  · intro h; exact absurd (Finset.mem_range.2 hk) h

theorem Data.Ok.tU_eq (hX : X.Ok shift) (H : HSS R) {v : Nat} (hv : v < R.arr.nNode) (h0 : R.arr.nChild v ≠ 0) (hl : 1 ≤ R.arr.level v) :
    colm (nn R v) (X.dd v) (nn R v) (X.tU v) =
      ∑ k ∈ Finset.range (R.arr.nChild v), X.J v k * (mf _ _ (X.um (kid R v k)) * Ub R v k) := by
  ext i c
  rw [Matrix.sum_apply]
  obtain ⟨k, hk, a, ea, ho⟩ := hX.find H hv h0 i
  rw [Finset.sum_eq_single k, J_mul_at _ ea]
  · unfold colm
    rw [ea, hX.innerU v hv hl k hk a a.2 c c.2, Matrix.mul_apply, Finset.sum_range]
    rfl
  · intro l hl hlk
    exact J_mul_off _ (ho l (Finset.mem_range.1 hl) hlk) _
  · intro h; exact absurd (Finset.mem_range.2 hk) h

theorem bVal_same (R : Rep K) (v k a c : Nat) : bVal R v k k a c = 0 := by
  unfold bVal
  rw [if_neg (by omega), if_neg (by omega)]

theorem Data.Ok.tD_eq (hX : X.Ok shift) (H : HSS R) {v : Nat} (hv : v < R.arr.nNode) (h0 : R.arr.nChild v ≠ 0) :
    mat (nn R v) (X.dd v) (X.tD v) =
      ∑ k ∈ Finset.range (R.arr.nChild v), X.J v k * mf _ _ (X.dm (kid R v k)) * (X.J v k)ᵀ +
      ∑ k ∈ Finset.range (R.arr.nChild v), ∑ l ∈ Finset.range (R.arr.nChild v),
        X.J v k * (mf _ _ (X.um (kid R v k)) * Bm R v k l * (mf _ _ (X.um (kid R v l)))ᵀ) * (X.J v l)ᵀ := by
  ext i j
  rw [Matrix.add_apply, Matrix.sum_apply, Matrix.sum_apply]
  obtain ⟨k, hk, a, ea, ho⟩ := hX.find H hv h0 i
  obtain ⟨l, hl, b, eb, ho2⟩ := hX.find H hv h0 j
  rw [Finset.sum_eq_single k, Finset.sum_eq_single k, Matrix.sum_apply, Finset.sum_eq_single l, mul_JT_at _ eb, J_mul_at _ ea]
  · unfold mat
    rw [ea, eb, hX.innerD v hv k hk l hl a a.2 b b.2]
    by_cases e : k = l
    · subst e
      rw [if_pos rfl, mul_JT_at _ eb, J_mul_at _ ea]
      have : Bm R v k k = 0 := by ext a c; exact bVal_same R v k a c
      rw [this]
      simp [mf]
    · rw [if_neg e, Matrix.mul_assoc (X.J v k), J_mul_at _ ea, mul_JT_off _ (ho2 k hk e), zero_add, Matrix.mul_apply]
      simp only [Matrix.mul_apply, transpose_apply, Finset.sum_mul]
      rw [Finset.sum_comm, Finset.sum_range]
      apply Finset.sum_congr rfl
      intro t _
      rw [Finset.sum_range]
      rfl
  · intro m hm hml
    exact mul_JT_off _ (ho2 m (Finset.mem_range.1 hm) hml) _
  · intro h; exact absurd (Finset.mem_range.2 hl) h
  · intro m hm hmk
    rw [Matrix.sum_apply]
    apply Finset.sum_eq_zero
    intro m' _
    rw [Matrix.mul_assoc, J_mul_off _ (ho m (Finset.mem_range.1 hm) hmk)]
  · intro h; exact absurd (Finset.mem_range.2 hk) h
  · intro m hm hmk
    rw [Matrix.mul_assoc, J_mul_off _ (ho m (Finset.mem_range.1 hm) hmk)]
  · intro h; exact absurd (Finset.mem_range.2 hk) h

theorem P_kids (H : HSS R) {v : Nat} (hv : v < R.arr.nNode) (h0 : R.arr.nChild v ≠ 0) :
    Pm R v = ∑ k ∈ Finset.range (R.arr.nChild v), Pm R (kid R v k) := by
  ext r q
  rw [Matrix.sum_apply]
  by_cases h1 : InRow R v r
  · obtain ⟨k, hk, hr⟩ := kid_row H.wf hv h0 h1
    rw [Finset.sum_eq_single k]
    · unfold Pm
      by_cases e : r = q
      · rw [if_pos ⟨e, h1⟩, if_pos ⟨e, hr⟩]
      · rw [if_neg (fun h => e h.1), if_neg (fun h => e h.1)]
    · intro l hl hlk
      unfold Pm
      rw [if_neg]
      intro h
      exact hlk (kid_row_unique H.wf hv (Finset.mem_range.1 hl) hk h.2 hr)
    · intro h; exact absurd (Finset.mem_range.2 hk) h
  · rw [Finset.sum_eq_zero]
    · unfold Pm; rw [if_neg (fun h => h1 h.2)]
    · intro k hk
      unfold Pm
      rw [if_neg]
      intro h
      exact h1 (kid_sub H.wf hv (Finset.mem_range.1 hk) h.2)

theorem W_kids (H : HSS R) (hW : Nested R W) {v : Nat} (hv : v < R.arr.nNode) (h0 : R.arr.nChild v ≠ 0) (hl : 1 ≤ R.arr.level v) :
    Wm R W v = ∑ k ∈ Finset.range (R.arr.nChild v), Wm R W (kid R v k) * Ub R v k := by
  ext r c
  rw [Matrix.sum_apply]
  change W v r c = _
  have hc : (c : Nat) < (R.U v).ncol := c.2.trans_eq (nn_pos hl)
  rw [hW.inner v hv (by rw [H.min]; exact hl) h0 r c hc]
  apply Finset.sum_congr rfl
  intro k hk
  rw [Matrix.mul_apply, ← nn_kid H.wf hv (kid_mem (Finset.mem_range.1 hk)), Finset.sum_range]
  rfl

/-- Two children contribute through their bases. -/
theorem WBW (H : HSS R) (hW : Nested R W) {v k l : Nat} (hv : v < R.arr.nNode) (hk : k < R.arr.nChild v) (hl : l < R.arr.nChild v)
    (hkl : k ≠ l) (r q : Fin R.size) (hr : InRow R (kid R v k) r) (hq : InRow R (kid R v l) q) :
    (Wm R W (kid R v k) * Bm R v k l * (Wm R W (kid R v l))ᵀ) r q = entry R W r q := by
  have nk := nn_kid H.wf hv (kid_mem hk)
  have nl := nn_kid H.wf hv (kid_mem hl)
  have expand : (Wm R W (kid R v k) * Bm R v k l * (Wm R W (kid R v l))ᵀ) r q =
      ∑ a ∈ Finset.range (R.U (kid R v k)).ncol, ∑ c ∈ Finset.range (R.U (kid R v l)).ncol, W (kid R v k) r a * bVal R v k l a c * W (kid R v l) q c := by
    rw [Matrix.mul_apply]
    simp only [Matrix.mul_apply, transpose_apply, Finset.sum_mul]
    rw [Finset.sum_comm, ← nk, Finset.sum_range]
    apply Finset.sum_congr rfl
    intro a _
    rw [← nl, Finset.sum_range]
    rfl
  rw [expand]
  rcases Nat.lt_or_gt_of_ne hkl with h | h
  · obtain ⟨hi, hp⟩ := bIdx_spec H hv h hl
    rw [(entry_kids H hW hv h hl hi hp hr hq).1]
    apply Finset.sum_congr rfl; intro a _
    apply Finset.sum_congr rfl; intro c _
    unfold bVal
    rw [if_pos h]
  · obtain ⟨hi, hp⟩ := bIdx_spec H hv h hk
    rw [(entry_kids H hW hv h hk hi hp hq hr).2, Finset.sum_comm]
    apply Finset.sum_congr rfl; intro a _
    apply Finset.sum_congr rfl; intro c _
    unfold bVal
    rw [if_neg (by omega), if_pos h]
    ring

theorem A_kids (H : HSS R) (hW : Nested R W) {v : Nat} (hv : v < R.arr.nNode) (h0 : R.arr.nChild v ≠ 0) :
    Am R W shift v = ∑ k ∈ Finset.range (R.arr.nChild v), Am R W shift (kid R v k) +
      ∑ k ∈ Finset.range (R.arr.nChild v), ∑ l ∈ Finset.range (R.arr.nChild v), Wm R W (kid R v k) * Bm R v k l * (Wm R W (kid R v l))ᵀ := by
  have h := H.wf
  have lev : ∀ k < R.arr.nChild v, 1 ≤ R.arr.level (kid R v k) := by
    intro k hk; have := h.tree.childLevel v hv _ (kid_mem hk); omega
  have PW : ∀ k < R.arr.nChild v, Pm R (kid R v k) * Wm R W (kid R v k) = Wm R W (kid R v k) := fun k hk =>
    P_W H hW (h.tree.kid_lt hv (kid_mem hk)) (lev k hk)
  have zl : ∀ k < R.arr.nChild v, ∀ l, ∀ r q : Fin R.size, ¬ InRow R (kid R v k) r → (Wm R W (kid R v k) * Bm R v k l * (Wm R W (kid R v l))ᵀ) r q = 0 := by
    intro k hk l r q hr
    rw [← PW k hk, Matrix.mul_assoc, Matrix.mul_assoc, Pm_mul, if_neg hr]
  have zr : ∀ k, ∀ l < R.arr.nChild v, ∀ r q : Fin R.size, ¬ InRow R (kid R v l) q → (Wm R W (kid R v k) * Bm R v k l * (Wm R W (kid R v l))ᵀ) r q = 0 := by
    intro k l hl r q hq
    rw [← PW l hl, Matrix.transpose_mul, Pm_T, ← Matrix.mul_assoc, mul_Pm, if_neg hq]
  ext r q
  rw [Matrix.add_apply, Matrix.sum_apply, Matrix.sum_apply]
  by_cases h1 : InRow R v r
  · by_cases h2 : InRow R v q
    · obtain ⟨k, hk, hr⟩ := kid_row h hv h0 h1
      obtain ⟨l, hl, hq⟩ := kid_row h hv h0 h2
      have e1 : ∑ k ∈ Finset.range (R.arr.nChild v), Am R W shift (kid R v k) r q = if k = l then shifted R W shift r q else 0 := by
        rw [Finset.sum_eq_single k]
        · unfold Am
          by_cases e : k = l
          · subst e
            rw [if_pos ⟨hr, hq⟩, if_pos rfl]
          · rw [if_neg e, if_neg]
            intro hh
            exact e (kid_row_unique h hv hk hl hh.2 hq)
        · intro m hm hmk
          unfold Am
          rw [if_neg]
          intro hh
          exact hmk (kid_row_unique h hv (Finset.mem_range.1 hm) hk hh.1 hr)
        · intro h; exact absurd (Finset.mem_range.2 hk) h
      have e2 : ∑ k ∈ Finset.range (R.arr.nChild v), (∑ l ∈ Finset.range (R.arr.nChild v), Wm R W (kid R v k) * Bm R v k l * (Wm R W (kid R v l))ᵀ) r q =
          (Wm R W (kid R v k) * Bm R v k l * (Wm R W (kid R v l))ᵀ) r q := by
        rw [Finset.sum_eq_single k, Matrix.sum_apply, Finset.sum_eq_single l]
        · intro m hm hml
          exact zr k m (Finset.mem_range.1 hm) r q (fun hh => hml (kid_row_unique h hv (Finset.mem_range.1 hm) hl hh hq))
        · intro h; exact absurd (Finset.mem_range.2 hl) h
        · intro m hm hmk
          rw [Matrix.sum_apply]
          apply Finset.sum_eq_zero
          intro l' _
          exact zl m (Finset.mem_range.1 hm) l' r q (fun hh => hmk (kid_row_unique h hv (Finset.mem_range.1 hm) hk hh hr))
        · intro h; exact absurd (Finset.mem_range.2 hk) h
      rw [e1, e2]
      unfold Am
      rw [if_pos ⟨h1, h2⟩]
      by_cases e : k = l
      · subst e
        have : Bm R v k k = 0 := by ext a c; exact bVal_same R v k a c
        rw [if_pos rfl, this]
        simp
      · rw [if_neg e, zero_add, WBW H hW hv hk hl e r q hr hq]
        unfold shifted
        rw [if_neg, add_zero]
        intro eq
        rw [eq] at hr
        exact e (kid_row_unique h hv hk hl hr hq)
    · have : Am R W shift v r q = 0 := by unfold Am; rw [if_neg (fun e => h2 e.2)]
      rw [this, Finset.sum_eq_zero, Finset.sum_eq_zero, add_zero]
      · intro k hk
        rw [Matrix.sum_apply]
        apply Finset.sum_eq_zero
        intro l hl
        exact zr k l (Finset.mem_range.1 hl) r q (fun hh => h2 (kid_sub h hv (Finset.mem_range.1 hl) hh))
      · intro k hk
        unfold Am
        rw [if_neg (fun e => h2 (kid_sub h hv (Finset.mem_range.1 hk) e.2))]
  · have : Am R W shift v r q = 0 := by unfold Am; rw [if_neg (fun e => h1 e.1)]
    rw [this, Finset.sum_eq_zero, Finset.sum_eq_zero, add_zero]
    · intro k hk
      rw [Matrix.sum_apply]
      apply Finset.sum_eq_zero
      intro l hl
      exact zl k (Finset.mem_range.1 hk) l r q (fun hh => h1 (kid_sub h hv (Finset.mem_range.1 hk) hh))
    · intro k hk
      unfold Am
      rw [if_neg (fun e => h1 (kid_sub h hv (Finset.mem_range.1 hk) e.1))]

end

end H2Pack.ULV
