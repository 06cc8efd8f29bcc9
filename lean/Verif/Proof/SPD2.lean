import Verif.Proof.SPD1
import Verif.Proof.QSort

set_option linter.unusedSectionVars false

/-! # SPDHSS: the pairs of a level -/

namespace H2Pack.SPD
open H2Pack.Part

section
variable {K : Type}

/-- The larger level of a pair. -/
def lvl (A : Arr K) (x : Nat × Nat) : Nat := max (A.level x.1) (A.level x.2)

/-- The children of a node, the node itself for a leaf. -/
def ch (A : Arr K) (v : Nat) : List Nat := if A.nChild v = 0 then [v] else kids A v

/-- The pair `x` with the nodes on the larger level replaced with their parents. -/
def par (A : Arr ℝ) (x : Nat × Nat) : Nat × Nat := raise A (lvl A x - 1) x

variable {A : Arr ℝ} {n : Nat} {adm : Nat → Nat → Bool}

theorem parent_nat (T : ClusterTree A n) {v c : Nat} (hv : v < A.nNode) (hc : c ∈ kids A v) : (A.parent c).toNat = v := by
  rw [T.parentOfChild v hv c hc]; simp

/-- The pairs below a visited pair that is not admissible. -/
theorem below (T : ClusterTree A n) {a b c d : Nat} (h : Vis A adm a b) (hadm : adm a b = false) (h0 : ¬ (A.nChild a = 0 ∧ A.nChild b = 0))
    (hc : c ∈ ch A a) (hd : d ∈ ch A b) : Vis A adm c d ∧ lvl A (c, d) = lvl A (a, b) + 1 ∧ par A (c, d) = (a, b) := by
  have hl := vis_lt T h
  have hlv := vis_level T h
  have key : Vis A adm c d → lvl A (c, d) = lvl A (a, b) + 1 → (if A.level c = lvl A (a, b) + 1 then (A.parent c).toNat else c) = a →
      (if A.level d = lvl A (a, b) + 1 then (A.parent d).toNat else d) = b → Vis A adm c d ∧ lvl A (c, d) = lvl A (a, b) + 1 ∧ par A (c, d) = (a, b) := by
    intro h1 h2 h3 h4
    refine ⟨h1, h2, ?_⟩
    unfold par raise
    rw [h2, Nat.add_sub_cancel]
    exact Prod.ext h3 h4
  unfold ch at hc hd
  unfold lvl at key ⊢
  dsimp only at key ⊢
  by_cases ha : A.nChild a = 0
  · rw [if_pos ha, List.mem_singleton] at hc
    subst hc
    have hb : A.nChild b ≠ 0 := fun h => h0 ⟨ha, h⟩
    rw [if_neg hb] at hd
    have hld := T.childLevel b hl.2 d hd
    have hle : A.level c ≤ A.level b := by
      by_contra hcon
      exact hb (hlv.2.1 (by omega))
    apply key (Vis.left h hadm ha hd)
    · omega
    · rw [if_neg (by omega)]
    · rw [if_pos (by omega), parent_nat T hl.2 hd]
  · rw [if_neg ha] at hc
    have hlc := T.childLevel a hl.1 c hc
    have hle : A.level b ≤ A.level a := by
      by_contra hcon
      exact ha (hlv.1 (by omega))
    by_cases hb : A.nChild b = 0
    · rw [if_pos hb, List.mem_singleton] at hd
      subst hd
      apply key (Vis.right h hadm hb hc)
      · omega
      · rw [if_pos (by omega), parent_nat T hl.1 hc]
      · rw [if_neg (by omega)]
    · rw [if_neg hb] at hd
      have hld := T.childLevel b hl.2 d hd
      have hle' : A.level a ≤ A.level b := by
        by_contra hcon
        exact hb (hlv.2.1 (by omega))
      apply key (Vis.both h hadm hc hd)
      · omega
      · rw [if_pos (by omega), parent_nat T hl.1 hc]
      · rw [if_pos (by omega), parent_nat T hl.2 hd]

/-- Above a visited pair there is one node, or a visited pair that is not admissible. -/
theorem above (T : ClusterTree A n) {a b : Nat} (h : Vis A adm a b) :
    (∃ v < A.nNode, ∃ k l, k < l ∧ l < A.nChild v ∧ a = (kids A v).getD k 0 ∧ b = (kids A v).getD l 0 ∧ par A (a, b) = (v, v)) ∨
    ∃ c d, Vis A adm c d ∧ adm c d = false ∧ ¬ (A.nChild c = 0 ∧ A.nChild d = 0) ∧ a ∈ ch A c ∧ b ∈ ch A d ∧ par A (a, b) = (c, d) := by
  cases h with
  | @sib v k l hv hkl hl =>
    left
    refine ⟨v, hv, k, l, hkl, hl, rfl, rfl, ?_⟩
    have hlen : (kids A v).length = A.nChild v := by simp [kids]
    have m1 : (kids A v).getD k 0 ∈ kids A v := by
      have : k < (kids A v).length := by omega
      simp [List.getD, this]
    have m2 : (kids A v).getD l 0 ∈ kids A v := by
      have : l < (kids A v).length := by omega
      simp [List.getD, this]
    unfold par raise lvl
    dsimp only
    rw [T.childLevel v hv _ m1, T.childLevel v hv _ m2, max_self, Nat.add_sub_cancel, if_pos rfl, if_pos rfl, parent_nat T hv m1, parent_nat T hv m2]
  | @both c d _ _ hab hadm hc hd =>
    have e1 : A.nChild c ≠ 0 := fun h => by rw [kids_nil_iff.2 h] at hc; simp at hc
    have e2 : A.nChild d ≠ 0 := fun h => by rw [kids_nil_iff.2 h] at hd; simp at hd
    have m1 : a ∈ ch A c := by rw [ch, if_neg e1]; exact hc
    have m2 : b ∈ ch A d := by rw [ch, if_neg e2]; exact hd
    exact Or.inr ⟨c, d, hab, hadm, by tauto, m1, m2, (below T hab hadm (by tauto) m1 m2).2.2⟩
  | @left _ d _ hab hadm h0 hd =>
    have e2 : A.nChild d ≠ 0 := fun h => by rw [kids_nil_iff.2 h] at hd; simp at hd
    have m1 : a ∈ ch A a := by rw [ch, if_pos h0]; simp
    have m2 : b ∈ ch A d := by rw [ch, if_neg e2]; exact hd
    exact Or.inr ⟨a, d, hab, hadm, by tauto, m1, m2, (below T hab hadm (by tauto) m1 m2).2.2⟩
  | @right c _ _ hab hadm h0 hc =>
    have e1 : A.nChild c ≠ 0 := fun h => by rw [kids_nil_iff.2 h] at hc; simp at hc
    have m1 : a ∈ ch A c := by rw [ch, if_neg e1]; exact hc
    have m2 : b ∈ ch A b := by rw [ch, if_pos h0]; simp
    exact Or.inr ⟨c, b, hab, hadm, by tauto, m1, m2, (below T hab hadm (by tauto) m1 m2).2.2⟩

theorem ch_ne_nil (v : Nat) : ∃ c, c ∈ ch A v := by
  unfold ch
  split
  · exact ⟨v, by simp⟩
  · rename_i h
    have hlen : (kids A v).length = A.nChild v := by simp [kids]
    exact ⟨(kids A v)[0]'(by omega), List.getElem_mem _⟩

/-! ## Sorting and removing duplicates -/

theorem pickNew_spec (pp : List (Nat × Nat)) (kv : H2Pack.CSR.KV) (enc : Nat × Nat → Int) : ∀ (m k : Nat) (cur : Int) (acc : List (Nat × Nat)),
    (∀ i j, k ≤ i → i ≤ j → j < k + m → kv.key i ≤ kv.key j) → (∀ j, k ≤ j → j < k + m → cur ≤ kv.key j) →
    (∀ j : Nat, k ≤ j → j < k + m → kv.key j = enc (pp.getD (kv.val j).toNat (0, 0))) →
    (∀ i j : Nat, k ≤ i → i < k + m → k ≤ j → j < k + m → enc (pp.getD (kv.val i).toNat (0, 0)) = enc (pp.getD (kv.val j).toNat (0, 0)) →
      pp.getD (kv.val i).toNat (0, 0) = pp.getD (kv.val j).toNat (0, 0)) →
    ∃ L, pickNew pp kv m k cur acc = acc ++ L ∧ L.Nodup ∧
      ∀ x, x ∈ L ↔ ∃ j : Nat, k ≤ j ∧ j < k + m ∧ kv.key j ≠ cur ∧ pp.getD (kv.val j).toNat (0, 0) = x := by
  intro m
  induction m with
  | zero =>
    intro k cur acc _ _ _ _
    exact ⟨[], by simp [pickNew], by simp, fun x => ⟨fun h => by simp at h, fun ⟨j, h1, h2, _⟩ => by omega⟩⟩
  | succ m ih =>
    intro k cur acc hs hcur henc hinj
    by_cases hne : cur ≠ kv.key k
    · obtain ⟨L, h1, h2, h3⟩ := ih (k + 1) (kv.key k) (acc ++ [pp.getD (kv.val k).toNat (0, 0)]) (fun i j a b c => hs i j (by omega) b (by omega))
        (fun j a b => hs k j (le_refl _) (by omega) (by omega)) (fun j a b => henc j (by omega) (by omega))
        (fun i j a b c d => hinj i j (by omega) (by omega) (by omega) (by omega))
      refine ⟨pp.getD (kv.val k).toNat (0, 0) :: L, ?_, ?_, ?_⟩
      · rw [pickNew, if_pos hne, h1]; simp
      · rw [List.nodup_cons]
        refine ⟨fun hmem => ?_, h2⟩
        obtain ⟨j, j1, j2, j3, j4⟩ := (h3 _).1 hmem
        apply j3
        rw [henc j (by omega) (by omega), henc k (by omega) (by omega), j4]
      · intro x
        rw [List.mem_cons, h3]
        have hk := hcur k (le_refl _) (by omega)
        constructor
        · rintro (rfl | ⟨j, j1, j2, j3, j4⟩)
          · exact ⟨k, le_refl _, by omega, hne.symm, rfl⟩
          · have := hs k j (le_refl _) (by omega) (by omega)
            exact ⟨j, by omega, by omega, by omega, j4⟩
        · rintro ⟨j, j1, j2, j3, j4⟩
          by_cases he : kv.key j = kv.key k
          · left
            rw [← j4]
            apply hinj j k (by omega) (by omega) (by omega) (by omega)
            rw [← henc j (by omega) (by omega), ← henc k (by omega) (by omega), he]
          · right
            have : j ≠ k := by rintro rfl; exact he rfl
            exact ⟨j, by omega, by omega, he, j4⟩
    · have hne : cur = kv.key k := not_not.1 hne
      obtain ⟨L, h1, h2, h3⟩ := ih (k + 1) cur acc (fun i j a b c => hs i j (by omega) b (by omega))
        (fun j a b => hcur j (by omega) (by omega)) (fun j a b => henc j (by omega) (by omega))
        (fun i j a b c d => hinj i j (by omega) (by omega) (by omega) (by omega))
      refine ⟨L, ?_, h2, ?_⟩
      · rw [pickNew, if_neg (not_not.2 hne), h1]
      · intro x
        rw [h3]
        constructor
        · rintro ⟨j, j1, j2, j3, j4⟩
          exact ⟨j, by omega, by omega, j3, j4⟩
        · rintro ⟨j, j1, j2, j3, j4⟩
          have : j ≠ k := by rintro rfl; exact j3 hne.symm
          exact ⟨j, by omega, by omega, j3, j4⟩

theorem mem_getD {α : Type} {L : List α} {d x : α} : x ∈ L ↔ ∃ k, k < L.length ∧ L.getD k d = x := by
  constructor
  · intro h
    obtain ⟨k, hk, he⟩ := List.getElem_of_mem h
    exact ⟨k, hk, by simp [List.getD, hk, he]⟩
  · rintro ⟨k, hk, rfl⟩
    have : L.getD k d = L[k] := by simp [List.getD, hk]
    rw [this]; exact List.getElem_mem hk

/-- Lines 1183-1220 give the different pairs of different nodes, once each. -/
theorem unique_spec (A : Arr ℝ) (hsm : A.nNode * A.nNode ≤ 2^31) (pp : List (Nat × Nat)) (hpp : ∀ x ∈ pp, x.1 < A.nNode ∧ x.2 < A.nNode) :
    ∃ L, Returns (fun fuel => uniquePairs A fuel pp) L ∧ L.Nodup ∧ ∀ x, x ∈ L ↔ x ∈ pp ∧ x.1 ≠ x.2 := by
  set val := (List.range pp.length).filter fun k => (pp.getD k (0, 0)).1 ≠ (pp.getD k (0, 0)).2 with hval
  set key := fun k : Nat => ((pp.getD (val.getD k 0) (0, 0)).1 * A.nNode + (pp.getD (val.getD k 0) (0, 0)).2 : Int) with hkey
  set enc := fun x : Nat × Nat => (x.1 * A.nNode + x.2 : Int) with hencd
  have hv : ∀ k < val.length, val.getD k 0 < pp.length ∧ (pp.getD (val.getD k 0) (0, 0)).1 ≠ (pp.getD (val.getD k 0) (0, 0)).2 := by
    intro k hk
    have : val.getD k 0 ∈ val := mem_getD.2 ⟨k, hk, rfl⟩
    generalize val.getD k 0 = j at this
    rw [hval, List.mem_filter, List.mem_range] at this
    exact ⟨this.1, by simpa using this.2⟩
  have hp : ∀ k < val.length, (pp.getD (val.getD k 0) (0, 0)).1 < A.nNode ∧ (pp.getD (val.getD k 0) (0, 0)).2 < A.nNode :=
    fun k hk => hpp _ (mem_getD.2 ⟨_, (hv k hk).1, rfl⟩)
  have henc_lt : ∀ x : Nat × Nat, x.1 < A.nNode → x.2 < A.nNode → enc x < 2^31 ∧ 0 ≤ enc x := by
    intro x h1 h2
    have : (x.1 + 1) * A.nNode ≤ A.nNode * A.nNode := Nat.mul_le_mul_right _ (by omega)
    have h3 : x.1 * A.nNode + x.2 < 2^31 := by rw [Nat.add_mul] at this; omega
    have h4 : enc x = ((x.1 * A.nNode + x.2 : Nat) : Int) := by simp [hencd]
    rw [h4]
    omega
  have henc_inj : ∀ x y : Nat × Nat, x.2 < A.nNode → y.2 < A.nNode → enc x = enc y → x = y := by
    intro x y h1 h2 h
    have : x.1 * A.nNode + x.2 = y.1 * A.nNode + y.2 := by simp only [hencd] at h; exact_mod_cast h
    have := H2Pack.MV.mul_add_inj h1 h2 this
    exact Prod.ext this.1 this.2
  have hall : ((List.range val.length).all fun k => decide (key k < 2^31)) = true := by
    rw [List.all_eq_true]
    intro k hk
    rw [List.mem_range] at hk
    exact decide_eq_true (henc_lt _ (hp k hk).1 (hp k hk).2).1
  by_cases h0 : val.length = 0
  · refine ⟨[], ⟨0, fun fuel _ => ?_⟩, by simp, fun x => ⟨fun h => by simp at h, ?_⟩⟩
    · unfold uniquePairs
      dsimp only
      rw [if_pos hall, if_pos h0]
    · rintro ⟨h1, h2⟩
      obtain ⟨k, hk, he⟩ := (mem_getD (d := (0, 0))).1 h1
      have : k ∈ val := by
        rw [hval, List.mem_filter, List.mem_range]
        refine ⟨hk, ?_⟩
        rw [he]; simpa using h2
      rw [List.length_eq_zero_iff] at h0
      rw [h0] at this; simp at this
  · obtain ⟨kv, ⟨F, hF⟩, hperm, hsort⟩ := H2Pack.CSR.qsort_spec (κ := Int) (ν := Int) val.length _ ⟨fun k => key k.toNat, fun k => val.getD k.toNat 0⟩ 0 ((val.length : Int) - 1)
      (le_refl _) (le_refl _) (by omega) (by omega)
    obtain ⟨σ, s1, s2, s3⟩ := hperm
    have hσ : ∀ k : Nat, k < val.length → ∃ i : Nat, i < val.length ∧ σ k = i := by
      intro k hk
      have := H2Pack.CSR.perm_mem s1 (k := (k : Int)) (by omega)
      exact ⟨(σ k).toNat, by omega, by omega⟩
    have hσ' : ∀ k : Nat, k < val.length → ∃ i : Nat, i < val.length ∧ σ i = k := by
      intro k hk
      by_cases hi : 0 ≤ σ.symm k ∧ σ.symm k ≤ (val.length : Int) - 1
      · exact ⟨(σ.symm k).toNat, by omega, by rw [Int.toNat_of_nonneg hi.1]; simp⟩
      · have := s1 _ hi
        rw [Equiv.apply_symm_apply] at this
        omega
    have hkv : ∀ k : Nat, k < val.length → ∃ i : Nat, i < val.length ∧ kv.key k = key i ∧ kv.val k = val.getD i 0 := by
      intro k hk
      obtain ⟨i, hi, he⟩ := hσ k hk
      refine ⟨i, hi, ?_, ?_⟩
      · rw [s2, he]; simp
      · rw [s3, he]; simp
    have hprk : ∀ k : Nat, k < val.length → kv.key k = enc (pp.getD (kv.val k).toNat (0, 0)) ∧
        (pp.getD (kv.val k).toNat (0, 0)).1 < A.nNode ∧ (pp.getD (kv.val k).toNat (0, 0)).2 < A.nNode ∧ 0 ≤ kv.key k := by
      intro k hk
      obtain ⟨i, hi, e1, e2⟩ := hkv k hk
      rw [e1, e2, Int.toNat_natCast]
      exact ⟨rfl, (hp i hi).1, (hp i hi).2, (henc_lt _ (hp i hi).1 (hp i hi).2).2⟩
    obtain ⟨L, l1, l2, l3⟩ := pickNew_spec pp kv enc val.length 0 (-19241112) []
      (fun i j _ b c => hsort i j (by omega) (by omega) (by omega))
      (fun j _ b => by have := (hprk j (by omega)).2.2.2; omega)
      (fun j _ b => (hprk j (by omega)).1)
      (fun i j _ b _ d h => henc_inj _ _ (hprk i (by omega)).2.2.1 (hprk j (by omega)).2.2.1 h)
    refine ⟨L, ⟨F, fun fuel hf => ?_⟩, l2, fun x => ?_⟩
    · have hq := hF fuel hf
      dsimp only at hq
      unfold uniquePairs
      dsimp only
      rw [if_pos hall, if_neg h0, hq, Res.bind_ok, l1]
      simp
    · rw [l3]
      constructor
      · rintro ⟨j, _, j2, _, j4⟩
        obtain ⟨i, hi, e1, e2⟩ := hkv j (by omega)
        rw [e2, Int.toNat_natCast] at j4
        rw [← j4]
        exact ⟨mem_getD.2 ⟨_, (hv i hi).1, rfl⟩, (hv i hi).2⟩
      · rintro ⟨h1, h2⟩
        obtain ⟨k, hk, he⟩ := (mem_getD (d := (0, 0))).1 h1
        have : k ∈ val := by
          rw [hval, List.mem_filter, List.mem_range]
          refine ⟨hk, ?_⟩
          rw [he]; simpa using h2
        obtain ⟨m, hm, hme⟩ := (mem_getD (d := 0)).1 this
        obtain ⟨i, hi, hie⟩ := hσ' m hm
        refine ⟨i, Nat.zero_le _, by omega, ?_, ?_⟩
        · have := (hprk i hi).2.2.2; omega
        · rw [s3, hie]
          simp only [Int.toNat_natCast]
          rw [hme, he]

/-! ## The pairs of the levels -/

/-- The list of level `max_level - d`: the visited pairs whose larger level is this one. -/
theorem levelPairs_spec (T : ClusterTree A n) (hsm : A.nNode * A.nNode ≤ 2^31) {pv : Pairs} {init : Nat}
    (h : Returns (fun fuel => calcPairs A adm 0 fuel (A.nNode - 1) (A.nNode - 1) ⟨[], [], init⟩) pv) : ∀ d, d < A.maxLevel →
    ∃ L, Returns (fun fuel => levelPairs A pv fuel d) L ∧ L.Nodup ∧ ∀ x, x ∈ L ↔ Vis A adm x.1 x.2 ∧ lvl A x = A.maxLevel - d := by
  obtain ⟨hA, hI, _, _⟩ := found_spec T h
  obtain ⟨nA, nI⟩ := found_nodup T h
  have mA : ∀ l x, x ∈ atLevel A l pv.adm ↔ Vis A adm x.1 x.2 ∧ adm x.1 x.2 = true ∧ lvl A x = l := by
    intro l x
    unfold atLevel
    rw [List.mem_filter, hA, decide_eq_true_eq, and_assoc]
    rfl
  have mI : ∀ l x, x ∈ atLevel A l pv.inadm ↔ Vis A adm x.1 x.2 ∧ adm x.1 x.2 = false ∧ (A.nChild x.1 = 0 ∧ A.nChild x.2 = 0) ∧ lvl A x = l := by
    intro l x
    unfold atLevel
    rw [List.mem_filter, hI, decide_eq_true_eq, and_assoc, and_assoc]
    rfl
  have nA' : ∀ l, (atLevel A l pv.adm).Nodup := fun l => nA.filter _
  have nI' : ∀ l, (atLevel A l pv.inadm).Nodup := fun l => nI.filter _
  intro d
  induction d with
  | zero =>
    intro hd
    refine ⟨_, ⟨0, fun fuel _ => rfl⟩, ?_, ?_⟩
    · refine List.nodup_append.2 ⟨nI' _, nA' _, ?_⟩
      rintro x hx y hy rfl
      rw [mI] at hx
      rw [mA] at hy
      rw [hx.2.1] at hy
      exact absurd hy.2.1 (by simp)
    · intro x
      rw [List.mem_append, mA, mI, Nat.sub_zero]
      constructor
      · rintro (h | h)
        · exact ⟨h.1, h.2.2.2⟩
        · exact ⟨h.1, h.2.2⟩
      · rintro ⟨hv, hl⟩
        cases hadm : adm x.1 x.2 with
        | true => exact Or.inr ⟨hv, rfl, hl⟩
        | false =>
          refine Or.inl ⟨hv, rfl, ?_, hl⟩
          by_contra h0
          obtain ⟨c, hc⟩ := ch_ne_nil (A := A) x.1
          obtain ⟨d, hd⟩ := ch_ne_nil (A := A) x.2
          obtain ⟨b1, b2, _⟩ := below T hv hadm h0 hc hd
          have hlt := vis_lt T b1
          have := T.levelLe c hlt.1
          have := T.levelLe d hlt.2
          rw [show ((x.1, x.2) : Nat × Nat) = x from rfl, hl] at b2
          unfold lvl at b2
          dsimp only at b2
          omega
  | succ d ih =>
    intro hd
    obtain ⟨prev, ⟨F1, hF1⟩, p1, p2⟩ := ih (by omega)
    have hlt : ∀ x ∈ prev.map (raise A (A.maxLevel - (d + 1))), x.1 < A.nNode ∧ x.2 < A.nNode := by
      intro x hx
      obtain ⟨y, hy, rfl⟩ := List.mem_map.1 hx
      rw [p2] at hy
      have e : raise A (A.maxLevel - (d + 1)) y = par A y := by
        unfold par; rw [hy.2]; congr 1
      rw [e]
      rcases above T hy.1 with ⟨v, hv, _, _, _, _, _, _, hp⟩ | ⟨c, d, hv, _, _, _, _, hp⟩
      · rw [show (y.1, y.2) = y from rfl] at hp; rw [hp]; exact ⟨hv, hv⟩
      · rw [show (y.1, y.2) = y from rfl] at hp; rw [hp]; exact vis_lt T hv
    obtain ⟨up, ⟨F2, hF2⟩, u1, u2⟩ := unique_spec A hsm _ hlt
    have hup : ∀ x, x ∈ up ↔ Vis A adm x.1 x.2 ∧ adm x.1 x.2 = false ∧ ¬ (A.nChild x.1 = 0 ∧ A.nChild x.2 = 0) ∧ lvl A x = A.maxLevel - (d + 1) := by
      intro x
      rw [u2, List.mem_map]
      constructor
      · rintro ⟨⟨y, hy, rfl⟩, hne⟩
        rw [p2] at hy
        have e : raise A (A.maxLevel - (d + 1)) y = par A y := by
          unfold par; rw [hy.2]; congr 1
        rw [e] at hne ⊢
        rcases above T hy.1 with ⟨v, hv, _, _, _, _, _, _, hp⟩ | ⟨c, d', hv, hadm, h0, m1, m2, hp⟩
        · rw [show (y.1, y.2) = y from rfl] at hp; rw [hp] at hne; exact absurd rfl hne
        · rw [show (y.1, y.2) = y from rfl] at hp
          rw [hp]
          refine ⟨hv, hadm, h0, ?_⟩
          have := (below T hv hadm h0 m1 m2).2.1
          rw [show (y.1, y.2) = y from rfl, hy.2] at this
          omega
      · rintro ⟨hv, hadm, h0, hl⟩
        refine ⟨?_, vis_ne T hv⟩
        obtain ⟨c, hc⟩ := ch_ne_nil (A := A) x.1
        obtain ⟨e, he⟩ := ch_ne_nil (A := A) x.2
        obtain ⟨b1, b2, b3⟩ := below T hv hadm h0 hc he
        rw [show ((x.1, x.2) : Nat × Nat) = x from rfl] at b2 b3
        refine ⟨(c, e), (p2 _).2 ⟨b1, by rw [b2, hl]; omega⟩, ?_⟩
        rw [← b3]
        unfold par
        rw [b2, hl]
        congr 1
    refine ⟨up ++ atLevel A (A.maxLevel - (d + 1)) pv.inadm ++ atLevel A (A.maxLevel - (d + 1)) pv.adm, ⟨max F1 F2, fun fuel hf => ?_⟩, ?_, ?_⟩
    · show levelPairs A pv fuel (d + 1) = _
      have e1 := hF1 fuel (le_trans (le_max_left _ _) hf)
      have e2 := hF2 fuel (le_trans (le_max_right _ _) hf)
      dsimp only at e1 e2
      rw [levelPairs, e1, Res.bind_ok]
      dsimp only
      rw [e2, Res.bind_ok]
    · refine List.nodup_append.2 ⟨List.nodup_append.2 ⟨u1, nI' _, ?_⟩, nA' _, ?_⟩
      · rintro x hx y hy rfl
        rw [hup] at hx
        rw [mI] at hy
        exact hx.2.2.1 hy.2.2.1
      · rintro x hx y hy rfl
        rw [mA] at hy
        have : adm x.1 x.2 = false := by
          rcases List.mem_append.1 hx with hx | hx
          · exact ((hup x).1 hx).2.1
          · exact ((mI _ x).1 hx).2.1
        rw [this] at hy
        exact absurd hy.2.1 (by simp)
    · intro x
      rw [List.mem_append, List.mem_append, hup, mI, mA]
      constructor
      · rintro ((h | h) | h)
        · exact ⟨h.1, h.2.2.2⟩
        · exact ⟨h.1, h.2.2.2⟩
        · exact ⟨h.1, h.2.2⟩
      · rintro ⟨hv, hl⟩
        cases hadm : adm x.1 x.2 with
        | true => exact Or.inr ⟨hv, rfl, hl⟩
        | false =>
          left
          by_cases h0 : A.nChild x.1 = 0 ∧ A.nChild x.2 = 0
          · exact Or.inr ⟨hv, rfl, h0, hl⟩
          · exact Or.inl ⟨hv, rfl, h0, hl⟩

/-- All pairs. -/
theorem allPairs_spec (T : ClusterTree A n) (hsm : A.nNode * A.nNode ≤ 2^31) {pv : Pairs} {init : Nat}
    (h : Returns (fun fuel => calcPairs A adm 0 fuel (A.nNode - 1) (A.nNode - 1) ⟨[], [], init⟩) pv) :
    ∃ L, Returns (fun fuel => allPairs A pv fuel) L ∧ L.Nodup ∧ ∀ x, x ∈ L ↔ Vis A adm x.1 x.2 := by
  have key : ∀ m, m ≤ A.maxLevel → ∃ L, Returns (fun fuel => ULV.loop (fun (acc : List (Nat × Nat)) d => do
      let L ← levelPairs A pv fuel d
      .ok (acc ++ L)) (List.range m) []) L ∧ L.Nodup ∧ ∀ x, x ∈ L ↔ Vis A adm x.1 x.2 ∧ A.maxLevel - m < lvl A x := by
    intro m
    induction m with
    | zero =>
      intro _
      refine ⟨[], ⟨0, fun fuel _ => rfl⟩, by simp, fun x => ⟨fun h => by simp at h, ?_⟩⟩
      rintro ⟨hv, hl⟩
      have hlt := vis_lt T hv
      have := T.levelLe _ hlt.1
      have := T.levelLe _ hlt.2
      unfold lvl at hl
      omega
    | succ m ih =>
      intro hm
      obtain ⟨L, ⟨F1, hF1⟩, l1, l2⟩ := ih (by omega)
      obtain ⟨L', ⟨F2, hF2⟩, m1, m2⟩ := levelPairs_spec T hsm h m (by omega)
      refine ⟨L ++ L', ⟨max F1 F2, fun fuel hf => ?_⟩, ?_, ?_⟩
      · have e1 := hF1 fuel (le_trans (le_max_left _ _) hf)
        have e2 := hF2 fuel (le_trans (le_max_right _ _) hf)
        dsimp only at e1 e2 ⊢
        rw [List.range_succ, ULV.loop_append, e1, Res.bind_ok, ULV.loop, e2, Res.bind_ok, Res.bind_ok, ULV.loop]
      · refine List.nodup_append.2 ⟨l1, m1, ?_⟩
        rintro x hx y hy rfl
        rw [l2] at hx
        rw [m2] at hy
        omega
      · intro x
        rw [List.mem_append, l2, m2]
        constructor
        · rintro (h | h)
          · exact ⟨h.1, by omega⟩
          · exact ⟨h.1, by omega⟩
        · rintro ⟨h1, h2⟩
          by_cases hc : A.maxLevel - m < lvl A x
          · exact Or.inl ⟨h1, hc⟩
          · exact Or.inr ⟨h1, by omega⟩
  obtain ⟨L, h1, h2, h3⟩ := key A.maxLevel (le_refl _)
  refine ⟨L, h1, h2, fun x => ?_⟩
  rw [h3]
  refine ⟨fun h => h.1, fun hv => ⟨hv, ?_⟩⟩
  have := (vis_level T hv).2.2
  unfold lvl
  omega

end

end H2Pack.SPD
