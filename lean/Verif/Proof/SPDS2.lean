import Verif.Proof.SPDS1
import Verif.Proof.SPD10

set_option linter.unusedSectionVars false

/-! # Sampling: explicit bases -/

namespace H2Pack.SPD
open H2Pack.MV (Mat Rep WF Nested kid off kid_mem rowS_lt_rowE nested_zero)
open H2Pack.Part
open H2Pack.ULV (InRow loop loop_snoc)
open Finset (range sum_congr mem_range)

section
variable {R : Rep ℝ}

/-- A loop with an invariant about the part of the list that is done. -/
theorem loop_list {σ α : Type} (f : σ → α → Res σ) (I : List α → σ → Prop) (L : List α) (s : σ) (h0 : I [] s)
    (hs : ∀ pre x post, L = pre ++ x :: post → ∀ s, I pre s → ∃ s', f s x = .ok s' ∧ I (pre ++ [x]) s') : ∃ s', loop f L s = .ok s' ∧ I L s' := by
  have key : ∀ pre post, L = pre ++ post → ∃ s', loop f pre s = .ok s' ∧ I pre s' := by
    intro pre
    induction pre using List.reverseRecOn with
    | nil => intro post _; exact ⟨s, rfl, h0⟩
    | append_singleton pre x ih =>
      intro post hL
      have hL' : L = pre ++ x :: post := by rw [hL]; simp
      obtain ⟨s1, e1, i1⟩ := ih _ hL'
      obtain ⟨s2, e2, i2⟩ := hs pre x post hL' s1 i1
      exact ⟨s2, by rw [loop_snoc, e1]; exact e2, i2⟩
  exact key L [] (by simp)

/-- The nodes of the levels `a`, ..., `max_level`, deepest level first. -/
theorem sweep_list (h : WF R) (ord : Nat → List Nat) (hord : ∀ l, (ord l).Perm (R.levelList l)) (a m : Nat) (hm : ∀ v < R.arr.nNode, R.arr.level v < a + m) :
    let L := (List.range' a m).reverse.flatMap ord
    (∀ v, v ∈ L ↔ v < R.arr.nNode ∧ a ≤ R.arr.level v) ∧ L.Nodup ∧ L.Pairwise (fun u v => R.arr.level v ≤ R.arr.level u) := by
  have T := h.tree
  have mo : ∀ l v, v ∈ ord l ↔ v < R.arr.nNode ∧ R.arr.level v = l := by
    intro l v
    rw [(hord l).mem_iff]
    unfold Rep.levelList
    rw [T.levelList l, List.mem_filter, List.mem_range, decide_eq_true_eq]
  have ndo : ∀ l, (ord l).Nodup := by
    intro l
    rw [(hord l).nodup_iff]
    unfold Rep.levelList
    rw [T.levelList l]
    exact List.nodup_range.filter _
  have pw : (List.range' a m).reverse.Pairwise (fun x y => y < x) := by
    rw [List.pairwise_reverse]
    exact List.pairwise_lt_range'
  refine ⟨?_, ?_, ?_⟩
  · intro v
    rw [List.mem_flatMap]
    constructor
    · rintro ⟨l, hl, hv⟩
      rw [List.mem_reverse, List.mem_range'_1] at hl
      have := (mo l v).1 hv
      exact ⟨this.1, by omega⟩
    · rintro ⟨h1, h2⟩
      exact ⟨R.arr.level v, by rw [List.mem_reverse, List.mem_range'_1]; exact ⟨h2, hm v h1⟩, (mo _ v).2 ⟨h1, rfl⟩⟩
  · rw [List.nodup_flatMap]
    refine ⟨fun l _ => ndo l, ?_⟩
    apply pw.imp
    intro x y hxy v hv1 hv2
    have h1 := (mo _ _).1 hv1
    have h2 := (mo _ _).1 hv2
    omega
  · rw [List.pairwise_flatMap]
    refine ⟨fun l _ => ?_, ?_⟩
    · apply List.pairwise_of_forall_mem_list
      intro u hu v hv
      have h1 := (mo _ _).1 hu
      have h2 := (mo _ _).1 hv
      omega
    · apply pw.imp
      intro x y hxy u hu v hv
      have h1 := (mo _ _).1 hu
      have h2 := (mo _ _).1 hv
      omega

theorem tiles_pos (A : Arr ℝ) : ∀ (L : List Nat) (a b : Nat), Tiles a b (L.map fun c => (A.ptS c, A.ptE c)) →
    (∀ k (hk : k < L.length), A.ptS L[k] = a + pos (fun c => A.ptE c + 1 - A.ptS c) L k) ∧ b = a + (L.map fun c => A.ptE c + 1 - A.ptS c).sum := by
  intro L
  induction L with
  | nil => intro a b h; exact ⟨fun k hk => absurd hk (by simp), by simpa [Tiles] using h.symm⟩
  | cons c L ih =>
    intro a b h
    obtain ⟨h1, h2, h3⟩ := h
    obtain ⟨i1, i2⟩ := ih _ _ h3
    constructor
    · intro k hk
      cases k with
      | zero => rw [pos_zero]; exact h1
      | succ k =>
        have := i1 k (by simpa using hk)
        rw [List.getElem_cons_succ, this]
        simp only [pos, List.take_succ_cons, List.map_cons, List.sum_cons]
        omega
    · rw [i2, List.map_cons, List.sum_cons]; omega

theorem kid_rows (h : WF R) {v : Nat} (hv : v < R.arr.nNode) (h0 : R.arr.nChild v ≠ 0) :
    (∀ k (hk : k < (kids R.arr v).length), R.rowS (kids R.arr v)[k] = R.rowS v + pos (fun c => R.rowE c - R.rowS c) (kids R.arr v) k) ∧
    R.rowE v - R.rowS v = ((kids R.arr v).map fun c => R.rowE c - R.rowS c).sum := by
  obtain ⟨h1, h2⟩ := tiles_pos R.arr _ _ _ (h.tree.tile v hv h0)
  have sc : ∀ L : List Nat, (L.map fun c => R.rowE c - R.rowS c).sum = R.kdim * (L.map fun c => R.arr.ptE c + 1 - R.arr.ptS c).sum := by
    intro L
    induction L with
    | nil => simp
    | cons c L ih =>
      rw [List.map_cons, List.sum_cons, ih, List.map_cons, List.sum_cons, Nat.mul_add]
      unfold Rep.rowE Rep.rowS
      rw [Nat.mul_sub]
  constructor
  · intro k hk
    have := h1 k hk
    unfold pos at this ⊢
    rw [sc]
    unfold Rep.rowS
    rw [this, Nat.mul_add]
  · rw [sc]
    unfold Rep.rowE Rep.rowS
    rw [h2, ← Nat.mul_sub]
    congr 1
    omega

/-- The explicit basis of `v` is the nested one. -/
def ExOk (R : Rep ℝ) (W : Nat → Nat → Nat → ℝ) (v : Nat) (m : Mat ℝ) : Prop :=
  m.nrow = R.rowE v - R.rowS v ∧ m.ncol = (R.U v).ncol ∧ ∀ i < m.nrow, ∀ c < m.ncol, m.e i c = W v (R.rowS v + i) c

theorem exNode_ok (h : WF R) {W : Nat → Nat → Nat → ℝ} (hW : Nested R W) (hlow : ∀ v < R.arr.nNode, R.arr.level v < R.minAdm → (R.U v).nrow = 0)
    {ex : Nat → Option (Mat ℝ)} {v : Nat} (hv : v < R.arr.nNode) (hk : ∀ c ∈ kids R.arr v, R.minAdm ≤ R.arr.level c → ∃ m, ex c = some m ∧ ExOk R W c m) :
    (R.arr.level v < R.minAdm → exNode R ex v = .ok ex) ∧
    (R.minAdm ≤ R.arr.level v → ∃ m, exNode R ex v = .ok (Function.update ex v (some m)) ∧ ExOk R W v m) := by
  constructor
  · intro hl
    unfold exNode
    dsimp only
    rw [if_pos (hlow v hv hl)]
  · intro hl
    have hrow := rowS_lt_rowE h hv
    by_cases h0 : R.arr.nChild v = 0
    · have hu := h.uLeaf v hv hl h0
      refine ⟨R.U v, ?_, hu, rfl, ?_⟩
      · unfold exNode
        dsimp only
        rw [if_neg (show ¬ (R.U v).nrow = 0 by omega), if_pos h0, if_pos (show R.rowE v - R.rowS v = (R.U v).nrow by omega)]
      · intro i hi c hc
        rw [hW.leaf v hv hl h0 _ c hc, if_pos (by omega)]
        congr 1; omega
    · have hu := h.uInner v hv hl h0
      have hlk : ∀ c ∈ kids R.arr v, R.minAdm ≤ R.arr.level c := fun c hc => by have := h.tree.childLevel v hv c hc; omega
      have hex : ∀ c ∈ kids R.arr v, ∃ m, ex c = some m ∧ ExOk R W c m := fun c hc => hk c hc (hlk c hc)
      haveI : Nonempty (Mat ℝ) := ⟨⟨0, 0, fun _ _ => 0⟩⟩
      choose! w hw hwo using hex
      have e1 : ((kids R.arr v).map w).map Mat.nrow = (kids R.arr v).map fun c => R.rowE c - R.rowS c := by
        rw [List.map_map]
        exact List.map_congr_left fun c hc => (hwo c hc).1
      have e2 : ((kids R.arr v).map w).map Mat.ncol = (kids R.arr v).map fun c => (R.U c).ncol := by
        rw [List.map_map]
        exact List.map_congr_left fun c hc => (hwo c hc).2.1
      have e3 : ((kids R.arr v).map fun c => (R.U c).ncol).sum = off R v (R.arr.nChild v) := by
        rw [← pos_length, kids_len, pos_kids _ _ (le_refl _)]; rfl
      obtain ⟨k1, k2⟩ := kid_rows h hv h0
      obtain ⟨s1, s2⟩ := stackW_ok (kids R.arr v) w (fun c => R.rowE c - R.rowS c) (fun c => (R.U c).ncol) (fun c hc => (hwo c hc).1)
        (fun c hc => (hwo c hc).2.1) (R.U v)
      have hpos : 0 < (R.U v).nrow := by
        rw [hu]
        have hk0 : 0 < R.arr.nChild v := by omega
        have m0 := kid_mem (R := R) hk0
        have := h.rank _ (h.tree.kid_lt hv m0) (hlk _ m0)
        have := H2Pack.ULV.off_mono R v (show 1 ≤ R.arr.nChild v by omega)
        rw [H2Pack.ULV.off_succ] at this
        omega
      refine ⟨⟨(((kids R.arr v).map w).map Mat.nrow).sum, (R.U v).ncol, (stackW ((kids R.arr v).map w) (R.U v)).2⟩, ?_, ?_, rfl, ?_⟩
      · unfold exNode
        dsimp only
        rw [if_neg (show ¬ (R.U v).nrow = 0 by omega), if_neg h0, needAll_some (kids R.arr v) hw, Res.bind_ok, if_pos]
        rw [e1, e2, e3]
        exact ⟨k2, hu⟩
      · show (((kids R.arr v).map w).map Mat.nrow).sum = _
        rw [e1, k2]
      · intro i hi c hc
        have hi : i < (((kids R.arr v).map w).map Mat.nrow).sum := hi
        rw [e1, ← k2] at hi
        show (stackW ((kids R.arr v).map w) (R.U v)).2 i c = _
        have hin : InRow R v (R.rowS v + i) := ⟨by omega, by omega⟩
        obtain ⟨k, hk', hr⟩ := H2Pack.ULV.kid_row h hv h0 hin
        have hkl : k < (kids R.arr v).length := by rw [kids_len]; exact hk'
        have hS := k1 k hkl
        rw [kid_get] at hS
        have hr1 : R.rowS (kid R v k) ≤ R.rowS v + i := hr.1
        have hr2 : R.rowS v + i < R.rowE (kid R v k) := hr.2
        obtain ⟨a, ha⟩ : ∃ a, i = pos (fun c => R.rowE c - R.rowS c) (kids R.arr v) k + a := ⟨i - pos (fun c => R.rowE c - R.rowS c) (kids R.arr v) k, by omega⟩
        have := s2 k hkl a (by rw [kid_get]; omega) c hc
        rw [kid_get] at this
        rw [ha, this, hW.inner v hv hl h0 _ c hc]
        have kn : ∀ l < R.arr.nChild v, kid R v l < R.arr.nNode := fun l hl => h.tree.kid_lt hv (kid_mem hl)
        conv_rhs => rw [Finset.sum_eq_single_of_mem k (mem_range.2 hk') (by
          intro l hl' hne
          rw [mem_range] at hl'
          apply Finset.sum_eq_zero
          intro d hd
          rw [mem_range] at hd
          rw [nested_zero h hW _ (kn l hl') (hlk _ (kid_mem hl')) _ (by
            intro hc'
            rw [← ha] at hc'
            exact hne (H2Pack.ULV.kid_row_unique h hv hl' hk' hc' hr)) d hd, zero_mul])]
        rw [pos_kids _ k (by omega)]
        apply sum_congr rfl
        intro d hd
        rw [mem_range] at hd
        have hm := kid_mem (R := R) hk'
        rw [(hwo _ hm).2.2 a (by rw [(hwo _ hm).1]; omega) d (by rw [(hwo _ hm).2.1]; exact hd)]
        rw [show R.rowS (kid R v k) + a = R.rowS v + (pos (fun c => R.rowE c - R.rowS c) (kids R.arr v) k + a) by omega]
        rfl

/-- `H2P_build_explicit_U` gives the bases. -/
theorem explicitU_ok (h : WF R) {W : Nat → Nat → Nat → ℝ} (hW : Nested R W) (hlow : ∀ v < R.arr.nNode, R.arr.level v < R.minAdm → (R.U v).nrow = 0)
    (hmin : 1 ≤ R.minAdm) (ord : Nat → List Nat) (hord : ∀ l, (ord l).Perm (R.levelList l)) :
    ∃ exU, explicitU R ord = .ok exU ∧ ∀ v < R.arr.nNode, R.minAdm ≤ R.arr.level v → ExOk R W v (exU v) := by
  obtain ⟨m1, m2, m3⟩ := sweep_list h ord hord 1 R.arr.maxLevel (fun v hv => by have := h.tree.levelLe v hv; omega)
  obtain ⟨ex, e, hI⟩ := loop_list (exNode R) (fun pre ex => ∀ v ∈ pre, R.minAdm ≤ R.arr.level v → ∃ m, ex v = some m ∧ ExOk R W v m)
    ((List.range' 1 R.arr.maxLevel).reverse.flatMap ord) (fun _ => none) (by simp) (by
      intro pre x post hL ex hI
      have hx := (m1 x).1 (by rw [hL]; simp)
      have hkid : ∀ c ∈ kids R.arr x, R.minAdm ≤ R.arr.level c → ∃ m, ex c = some m ∧ ExOk R W c m := by
        intro c hc hl
        apply hI c _ hl
        have hlc := h.tree.childLevel x hx.1 c hc
        have hm := (m1 c).2 ⟨h.tree.kid_lt hx.1 hc, by omega⟩
        rw [hL, List.mem_append, List.mem_cons] at hm
        rcases hm with hm | rfl | hm
        · exact hm
        · have := h.tree.childLt c hx.1 c hc; omega
        · rw [hL, List.pairwise_append] at m3
          have := (List.pairwise_cons.1 m3.2.1).1 c hm
          omega
      obtain ⟨q1, q2⟩ := exNode_ok h hW hlow hx.1 hkid
      rcases Nat.lt_or_ge (R.arr.level x) R.minAdm with hl | hl
      · refine ⟨ex, q1 hl, ?_⟩
        intro v hv hlv
        rcases List.mem_append.1 hv with hv | hv
        · exact hI v hv hlv
        · rw [List.mem_singleton] at hv; subst hv; omega
      · obtain ⟨m, e, hm⟩ := q2 hl
        refine ⟨_, e, ?_⟩
        intro v hv hlv
        by_cases he : v = x
        · subst he; exact ⟨m, Function.update_self _ _ _, hm⟩
        · rw [Function.update_of_ne he]
          apply hI v _ hlv
          rcases List.mem_append.1 hv with hv | hv
          · exact hv
          · exact absurd (List.mem_singleton.1 hv) he)
  refine ⟨fun v => (ex v).getD ⟨0, 0, fun _ _ => 0⟩, ?_, ?_⟩
  · unfold explicitU
    rw [e]; rfl
  · intro v hv hl
    obtain ⟨m, e1, e2⟩ := hI v ((m1 v).2 ⟨hv, by omega⟩) hl
    simp only [e1, Option.getD_some]
    exact e2

end
end H2Pack.SPD
