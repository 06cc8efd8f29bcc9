import Verif.Proof.ULV5
import Verif.Spec.ULVBlocks

/-! # Assembling the matrices of a node -/

set_option linter.unusedSectionVars false

namespace H2Pack.ULV
open Matrix
open H2Pack.MV
open H2Pack.Part (Arr kids ClusterTree Desc)

section
variable {K : Type} [Field K]

theorem putBlock_in {r c nr nc : Nat} {f d : Nat → Nat → K} {i j a b : Nat} (ha : a < nr) (hb : b < nc) (hi : i = r + a) (hj : j = c + b) :
    putBlock r c nr nc f d i j = f a b := by
  subst hi hj
  unfold putBlock
  rw [if_pos ⟨by omega, by omega, by omega, by omega⟩]
  congr 1 <;> omega

theorem putBlock_out {r c nr nc : Nat} {f d : Nat → Nat → K} {i j : Nat} (h : ¬ (r ≤ i ∧ i < r + nr) ∨ ¬ (c ≤ j ∧ j < c + nc)) :
    putBlock r c nr nc f d i j = d i j := by
  unfold putBlock
  rw [if_neg]
  rintro ⟨h1, h2, h3, h4⟩
  rcases h with h | h <;> exact h ⟨by omega, by omega⟩

/-- The part of `d` on the blocks in `S` is right. -/
def Good (R : Rep K) (v : Nat) (T : Nat → Nat → Nat → Nat → K) (S : Nat → Nat → Prop) (d : Nat → Nat → K) : Prop :=
  ∀ p q, p < R.arr.nChild v → q < R.arr.nChild v → S p q → ∀ a < (R.U (kid R v p)).ncol, ∀ b < (R.U (kid R v q)).ncol,
    d (off R v p + a) (off R v q + b) = T p q a b

theorem Good.put {R : Rep K} {v : Nat} {T : Nat → Nat → Nat → Nat → K} {S : Nat → Nat → Prop} {d : Nat → Nat → K} (h : Good R v T S d)
    {p q : Nat} {f : Nat → Nat → K}
    (hf : ∀ a < (R.U (kid R v p)).ncol, ∀ b < (R.U (kid R v q)).ncol, f a b = T p q a b) :
    Good R v T (fun p' q' => S p' q' ∨ (p' = p ∧ q' = q))
      (putBlock (off R v p) (off R v q) (R.U (kid R v p)).ncol (R.U (kid R v q)).ncol f d) := by
  intro p' q' hp' hq' hS a ha b hb
  by_cases e : p' = p ∧ q' = q
  · obtain ⟨rfl, rfl⟩ := e
    rw [putBlock_in ha hb rfl rfl, hf a ha b hb]
  · have hS' : S p' q' := by
      rcases hS with h | h
      · exact h
      · exact absurd h e
    rw [putBlock_out, h p' q' hp' hq' hS' a ha b hb]
    by_contra hno
    push Not at hno
    apply e
    have e1 : off R v p' + a = off R v p + (off R v p' + a - off R v p) := by omega
    have e2 : off R v q' + b = off R v q + (off R v q' + b - off R v q) := by omega
    exact ⟨(off_unique R v ha (by omega) e1).1, (off_unique R v hb (by omega) e2).1⟩

theorem Good.mono {R : Rep K} {v : Nat} {T : Nat → Nat → Nat → Nat → K} {S S' : Nat → Nat → Prop} {d : Nat → Nat → K} (h : Good R v T S d)
    (hS : ∀ p q, p < R.arr.nChild v → q < R.arr.nChild v → S' p q → S p q) : Good R v T S' d := fun p q hp hq hs => h p q hp hq (hS p q hp hq hs)

/-- Intermediate matrices of the children, with their sizes. -/
structure Mids (R : Rep K) (v : Nat) (um dm : Nat → Option (Mat K)) (um' dm' : Nat → Mat K) : Prop where
  um : ∀ c ∈ kids R.arr v, um c = some (um' c) ∧ (um' c).nrow = (R.U c).ncol ∧ (um' c).ncol = (R.U c).ncol
  dm : ∀ c ∈ kids R.arr v, dm c = some (dm' c) ∧ (dm' c).nrow = (R.U c).ncol ∧ (dm' c).ncol = (R.U c).ncol

section
variable {R : Rep K} {v : Nat} {um dm : Nat → Option (Mat K)} {um' dm' : Nat → Mat K}

theorem Mids.offset (h : Mids R v um dm um' dm') {k : Nat} (hk : k ≤ R.arr.nChild v) : offset R dm v k = off R v k := by
  unfold ULV.offset off
  apply Finset.sum_congr rfl
  intro j hj
  have := h.dm (kid R v j) (kid_mem (lt_of_lt_of_le (Finset.mem_range.1 hj) hk))
  show (deref (dm (kid R v j))).nrow = _
  rw [this.1]
  exact this.2.1

theorem foldl_inv {α β : Type} (f : β → α → β) (P : Nat → β → Prop) (l : List α) (b : β) (h0 : P 0 b)
    (hs : ∀ i (hi : i < l.length) (x : β), P i x → P (i + 1) (f x l[i])) : P l.length (l.foldl f b) := by
  induction l generalizing b P with
  | nil => exact h0
  | cons y l ih =>
    rw [List.foldl_cons]
    exact ih (fun i => P (i + 1)) (f b y) (hs 0 (by simp) b h0) (fun i hi x hx => hs (i + 1) (by simp; omega) x hx)

theorem foldl_range_inv {β : Type} (f : β → Nat → β) (P : Nat → β → Prop) (n : Nat) (b : β) (h0 : P 0 b)
    (hs : ∀ i < n, ∀ x, P i x → P (i + 1) (f x i)) : P n ((List.range n).foldl f b) := by
  have := foldl_inv f P (List.range n) b h0 (fun i hi x hx => by
    rw [List.length_range] at hi
    rw [List.getElem_range]
    exact hs i hi x hx)
  rwa [List.length_range] at this

theorem Mids.uDiag (h : Mids R v um dm um' dm') : ∀ k < R.arr.nChild v, ∀ l < R.arr.nChild v, ∀ a < (R.U (kid R v k)).ncol, ∀ b < (R.U (kid R v l)).ncol,
    tmpUDiag R um dm v (off R v k + a) (off R v l + b) = if k = l then (um' (kid R v k)).e a b else 0 := by
  have key : Good R v (fun k l a b => if k = l then (um' (kid R v k)).e a b else 0) (fun p q => p ≠ q ∨ p < R.arr.nChild v) (tmpUDiag R um dm v) := by
    unfold tmpUDiag
    apply foldl_range_inv _ (fun n d => Good R v (fun k l a b => if k = l then (um' (kid R v k)).e a b else 0) (fun p q => p ≠ q ∨ p < n) d)
    · intro p q _ _ hS a _ b _
      rcases hS with hS | hS
      · exact (if_neg hS).symm
      · omega
    · intro k hk d hd
      have hm := h.um (kid R v k) (kid_mem hk)
      have e : child R v k = kid R v k := rfl
      simp only [e]
      rw [h.offset (by omega), hm.1]
      simp only [deref, Option.getD_some]
      rw [hm.2.1, hm.2.2]
      refine (hd.put (p := k) (q := k) (fun a _ b _ => by rw [if_pos rfl])).mono ?_
      intro p q _ _ hS
      by_cases e : p = k ∧ q = k
      · exact Or.inr e
      · left
        rcases hS with hS | hS
        · exact Or.inl hS
        · by_cases e2 : p = q
          · right; omega
          · exact Or.inl e2
  intro k hk l hl a ha b hb
  exact key k l hk hl (Or.inr hk) a ha b hb

theorem blkMat_block {b : Option (Blk K)} {B : Mat K} (h : IsBlock b B false) :
    usable b = true ∧ ∃ x, b = some x ∧ (blkMat x).nrow = B.nrow ∧ (blkMat x).ncol = B.ncol ∧ ∀ r < B.nrow, ∀ c < B.ncol, (blkMat x).e r c = B.e r c := by
  obtain ⟨d, e, hd⟩ := h
  rw [e]
  refine ⟨by simp [usable], _, rfl, rfl, rfl, ?_⟩
  intro r hr c hc
  unfold blkMat
  simp only [Bool.false_eq_true, if_false, Int.toNat_natCast]
  exact hd r hr c hc

/-- The assembled diagonal block. -/
def tDval (R : Rep K) (v : Nat) (um' dm' : Nat → Mat K) (k l a b : Nat) : K :=
  if k = l then (dm' (kid R v k)).e a b else
    ∑ s ∈ Finset.range (R.U (kid R v k)).ncol, ∑ t ∈ Finset.range (R.U (kid R v l)).ncol, (um' (kid R v k)).e a s * bVal R v k l s t * (um' (kid R v l)).e b t

theorem tDval_symm (R : Rep K) (v : Nat) (um' dm' : Nat → Mat K) {k l : Nat} (h : k ≠ l) (a b : Nat) :
    tDval R v um' dm' l k b a = tDval R v um' dm' k l a b := by
  unfold tDval
  rw [if_neg h, if_neg (Ne.symm h), Finset.sum_comm]
  apply Finset.sum_congr rfl; intro s _
  apply Finset.sum_congr rfl; intro t _
  have : bVal R v l k t s = bVal R v k l s t := by
    unfold bVal
    rcases Nat.lt_or_gt_of_ne h with h | h
    · rw [if_neg (by omega), if_pos h, if_pos h]
    · rw [if_pos h, if_neg (by omega), if_pos h]
  rw [this]
  ring

theorem Mids.offDiag (h : Mids R v um dm um' dm') (H : HSS R) (hv : v < R.arr.nNode) {getB getD : Nat → Nat → Option (Blk K)} (hb : Blocks R getB getD)
    {k l : Nat} (hkl : k < l) (hl : l < R.arr.nChild v) (a b : Nat) (hb' : b < (R.U (kid R v l)).ncol) :
    offDiag getB um (kid R v k) (kid R v l) a b = tDval R v um' dm' k l a b := by
  have hk : k < R.arr.nChild v := by omega
  obtain ⟨hi, hp⟩ := bIdx_spec H hv hkl hl
  have hB := hb.b _ hi
  rw [hp] at hB
  obtain ⟨_, x, e, e1, e2, e3⟩ := blkMat_block hB
  have lk := H.wf.tree.childLevel v hv _ (kid_mem hk)
  have ll := H.wf.tree.childLevel v hv _ (kid_mem hl)
  have n1 : (R.B (bIdx R v k l)).nrow = (R.U (kid R v k)).ncol := by
    rw [H.wf.bRow _ hi, hp, if_pos (by simp only [lk, ll]; omega)]
  have n2 : (R.B (bIdx R v k l)).ncol = (R.U (kid R v l)).ncol := by
    rw [H.wf.bCol _ hi, hp, if_pos (by simp only [lk, ll]; omega)]
  unfold ULV.offDiag getMat
  rw [e]
  simp only
  rw [(h.um _ (kid_mem hk)).1, (h.um _ (kid_mem hl)).1]
  simp only [deref, Option.getD_some]
  unfold tDval
  rw [if_neg (by omega), e1, n1]
  apply Finset.sum_congr rfl; intro s hs
  rw [e2, n2, Finset.mul_sum]
  apply Finset.sum_congr rfl; intro t ht
  rw [e3 s (by rw [n1]; exact Finset.mem_range.1 hs) t (by rw [n2]; exact Finset.mem_range.1 ht)]
  unfold bVal
  rw [if_pos hkl]
  ring

theorem Mids.dInner (h : Mids R v um dm um' dm') (H : HSS R) (hv : v < R.arr.nNode) {getB getD : Nat → Nat → Option (Blk K)} (hb : Blocks R getB getD) :
    ∀ k < R.arr.nChild v, ∀ l < R.arr.nChild v, ∀ a < (R.U (kid R v k)).ncol, ∀ b < (R.U (kid R v l)).ncol,
    tmpDInner R getB um dm v (off R v k + a) (off R v l + b) = tDval R v um' dm' k l a b := by
  have key : Good R v (tDval R v um' dm') (fun p q => p < R.arr.nChild v ∨ q < R.arr.nChild v) (tmpDInner R getB um dm v) := by
    unfold tmpDInner
    apply foldl_range_inv _ (fun n d => Good R v (tDval R v um' dm') (fun p q => p < n ∨ q < n) d)
    · intro p q _ _ hS
      omega
    · intro k hk d hd
      have hm := h.dm (kid R v k) (kid_mem hk)
      have hmu := h.um (kid R v k) (kid_mem hk)
      have e : ∀ k, child R v k = kid R v k := fun _ => rfl
      simp only [e]
      have hin : Good R v (tDval R v um' dm') (fun p q => (p < k ∨ q < k) ∨ (p = k ∧ q = k))
          (putBlock (ULV.offset R dm v k) (ULV.offset R dm v k) (deref (dm (kid R v k))).nrow (deref (dm (kid R v k))).ncol (deref (dm (kid R v k))).e d) := by
        rw [h.offset (by omega), hm.1]
        simp only [deref, Option.getD_some]
        rw [hm.2.1, hm.2.2]
        exact hd.put (fun a _ b _ => by unfold tDval; rw [if_pos rfl])
      generalize putBlock (ULV.offset R dm v k) (ULV.offset R dm v k) (deref (dm (kid R v k))).nrow (deref (dm (kid R v k))).ncol (deref (dm (kid R v k))).e d = d1 at hin
      have hfin := foldl_inv (fun d l =>
          putBlock (ULV.offset R dm v l) (ULV.offset R dm v k) (ULV.offset R dm v (l + 1) - ULV.offset R dm v l) (ULV.offset R dm v (k + 1) - ULV.offset R dm v k)
            (fun i j => putBlock (ULV.offset R dm v k) (ULV.offset R dm v l) (deref (um (kid R v k))).nrow (deref (um (kid R v l))).nrow
              (ULV.offDiag getB um (kid R v k) (kid R v l)) d (ULV.offset R dm v k + j) (ULV.offset R dm v l + i))
            (putBlock (ULV.offset R dm v k) (ULV.offset R dm v l) (deref (um (kid R v k))).nrow (deref (um (kid R v l))).nrow
              (ULV.offDiag getB um (kid R v k) (kid R v l)) d))
        (fun n d => Good R v (tDval R v um' dm') (fun p q => (p < k ∨ q < k) ∨ (p = k ∧ q = k) ∨ (p = k ∧ k < q ∧ q < k + 1 + n) ∨ (q = k ∧ k < p ∧ p < k + 1 + n)) d)
        (List.range' (k + 1) (R.arr.nChild v - (k + 1))) d1
        (hin.mono (by intro p q _ _ hS; omega)) (by
          intro i hi x hx
          rw [List.length_range'] at hi
          rw [List.getElem_range']
          simp only [one_mul]
          have hl : k + 1 + i < R.arr.nChild v := by omega
          have hml := h.um (kid R v (k + 1 + i)) (kid_mem hl)
          rw [h.offset (show k ≤ _ by omega), h.offset (show k + 1 ≤ _ by omega), h.offset (show k + 1 + i ≤ _ by omega),
            h.offset (show k + 1 + i + 1 ≤ _ by omega), off_succ, off_succ, hmu.1, hml.1]
          simp only [deref, Option.getD_some, Nat.add_sub_cancel_left]
          rw [hmu.2.1, hml.2.1]
          have g1 := hx.put (p := k) (q := k + 1 + i) (f := ULV.offDiag getB um (kid R v k) (kid R v (k + 1 + i)))
            (fun a _ b hb' => h.offDiag H hv hb (by omega) hl a b hb')
          have g2 := g1.put (p := k + 1 + i) (q := k) (f := fun i' j' => putBlock (off R v k) (off R v (k + 1 + i)) (R.U (kid R v k)).ncol
              (R.U (kid R v (k + 1 + i))).ncol (ULV.offDiag getB um (kid R v k) (kid R v (k + 1 + i))) x (off R v k + j') (off R v (k + 1 + i) + i'))
            (fun a ha b hb' => by
              rw [g1 k (k + 1 + i) hk hl (Or.inr ⟨rfl, rfl⟩) b hb' a ha]
              exact (tDval_symm R v um' dm' (by omega) b a).symm)
          exact g2.mono (by intro p q _ _ hS; omega))
      rw [List.length_range'] at hfin
      exact hfin.mono (by intro p q _ _ hS; omega)
  intro k hk l hl a ha b hb'
  exact key k l hk hl (Or.inl hk) a ha b hb'

theorem sum_off {M : Type} [AddCommMonoid M] (R : Rep K) (v n : Nat) (F : Nat → M) :
    ∑ t ∈ Finset.range (off R v n), F t = ∑ l ∈ Finset.range n, ∑ b ∈ Finset.range (R.U (kid R v l)).ncol, F (off R v l + b) := by
  induction n with
  | zero => simp [off]
  | succ n ih => rw [off_succ, Finset.sum_range_add, ih, Finset.sum_range_succ]

/-- A node with children. -/
theorem assemble_inner (h : Mids R v um dm um' dm') (H : HSS R) (hv : v < R.arr.nNode) (h0 : R.arr.nChild v ≠ 0)
    {getB getD : Nat → Nat → Option (Blk K)} (hb : Blocks R getB getD) (shift : K) :
    ∃ tU tD, assemble R getB getD shift (R.arr.level v) um dm v = .ok (tU, tD) ∧ tU.nrow = off R v (R.arr.nChild v) ∧
      (1 ≤ R.arr.level v → tU.ncol = (R.U v).ncol) ∧ tD.nrow = off R v (R.arr.nChild v) ∧
      (∀ k < R.arr.nChild v, ∀ l < R.arr.nChild v, ∀ a < (R.U (kid R v k)).ncol, ∀ b < (R.U (kid R v l)).ncol,
        tD.e (off R v k + a) (off R v l + b) = tDval R v um' dm' k l a b) ∧
      (1 ≤ R.arr.level v → ∀ k < R.arr.nChild v, ∀ a < (R.U (kid R v k)).ncol, ∀ c,
        tU.e (off R v k + a) c = ∑ d ∈ Finset.range (R.U (kid R v k)).ncol, (um' (kid R v k)).e a d * (R.U v).e (off R v k + d) c) := by
  have hcond : (((kids R.arr v).all fun c => (um c).isSome && (dm c).isSome) &&
       ((List.range (R.arr.nChild v)).all fun k => (List.range' (k + 1) (R.arr.nChild v - (k + 1))).all fun l =>
          usable (getB (child R v k) (child R v l)))) = true := by
    rw [Bool.and_eq_true, List.all_eq_true, List.all_eq_true]
    refine ⟨fun c hc => ?_, fun k hk => ?_⟩
    · rw [(h.um c hc).1, (h.dm c hc).1]; rfl
    · rw [List.all_eq_true]
      intro l hl
      rw [List.mem_range] at hk
      rw [List.mem_range'_1] at hl
      obtain ⟨hi, hp⟩ := bIdx_spec H hv (show k < l by omega) (show l < R.arr.nChild v by omega)
      have hB := hb.b _ hi
      rw [hp] at hB
      exact (blkMat_block hB).1
  unfold assemble
  rw [if_neg h0, if_pos hcond, h.offset le_rfl]
  dsimp only
  by_cases hl : 0 < R.arr.level v
  · rw [if_pos hl]
    dsimp only
    have hsz := H.wf.uInner v hv (by rw [H.min]; exact hl) h0
    rw [if_pos (by rw [← hsz]; exact H.tall v hv hl)]
    refine ⟨_, _, rfl, rfl, fun _ => rfl, rfl, h.dInner H hv hb, fun _ k hk a ha c => ?_⟩
    dsimp only
    rw [sum_off, Finset.sum_eq_single k]
    · apply Finset.sum_congr rfl
      intro d hd
      rw [h.uDiag k hk k hk a ha d (Finset.mem_range.1 hd), if_pos rfl]
    · intro l hl' hlk
      apply Finset.sum_eq_zero
      intro d hd
      rw [h.uDiag k hk l (Finset.mem_range.1 hl') a ha d (Finset.mem_range.1 hd), if_neg (Ne.symm hlk), zero_mul]
    · intro hn; exact absurd (Finset.mem_range.2 hk) hn
  · rw [if_neg hl]
    dsimp only
    rw [if_pos le_rfl]
    refine ⟨_, _, rfl, rfl, fun hh => by omega, rfl, h.dInner H hv hb, fun hh => by omega⟩

/-- A leaf. -/
theorem assemble_leaf (H : HSS R) (um dm : Nat → Option (Mat K)) {getB getD : Nat → Nat → Option (Blk K)} (hb : Blocks R getB getD) (shift : K)
    {i : Nat} (hi : i < R.arr.nLeaf) :
    ∃ tD, assemble R getB getD shift (R.arr.level (R.leaf i)) um dm (R.leaf i) = .ok (R.U (R.leaf i), tD) ∧
      1 ≤ R.arr.level (R.leaf i) ∧ (R.U (R.leaf i)).nrow = R.rowE (R.leaf i) - R.rowS (R.leaf i) ∧
      tD.nrow = R.rowE (R.leaf i) - R.rowS (R.leaf i) ∧
      ∀ a < R.rowE (R.leaf i) - R.rowS (R.leaf i), ∀ b < R.rowE (R.leaf i) - R.rowS (R.leaf i),
        tD.e a b = (R.D i).e a b + if a = b then shift else 0 := by
  obtain ⟨hv, h0⟩ := mem_leaf H.wf hi
  have hl : 1 ≤ R.arr.level (R.leaf i) := by
    by_contra hlt
    have hne : R.leaf i ≠ R.arr.nNode - 1 := fun e => H.root (by rw [← e]; exact h0)
    obtain ⟨w, hw, _, hm⟩ := H.wf.tree.childOfParent (R.leaf i) (by omega)
    have := H.wf.tree.childLevel w hw _ hm
    omega
  have hsz := H.wf.uLeaf _ hv (by rw [H.min]; exact hl) h0
  obtain ⟨d1, d2⟩ := H.wf.d0 i hi
  obtain ⟨d, e, hd⟩ := hb.d i hi
  unfold assemble
  rw [if_pos h0, e]
  dsimp only
  simp only [Bool.false_eq_true, if_false, Int.toNat_natCast]
  rw [if_pos ⟨by rw [d2, hsz], H.tall _ hv hl⟩]
  refine ⟨_, rfl, hl, hsz, d1, ?_⟩
  intro a ha b hb'
  dsimp only
  rw [hd a (by omega) b (by omega)]
  by_cases e : a = b
  · rw [if_pos ⟨e, by omega⟩, if_pos e]
  · rw [if_neg (fun h => e h.1), if_neg e, add_zero]

end

end

end H2Pack.ULV
