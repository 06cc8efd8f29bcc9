import Verif.Proof.SPDS2
import Verif.Props.Matmul

set_option linter.unusedSectionVars false

/-! # Sampling: the products and their accumulation -/

namespace H2Pack.SPD
open H2Pack.MV
open H2Pack.Part (Arr kids Desc ClusterTree)
open H2Pack.ULV (InRow loop loop_snoc comparable row_desc leaf_desc)
open Finset (range sum_congr mem_range sum_comm sum_add_distrib mul_sum sum_mul)

section
variable {R : Rep ℝ}

theorem gemm_blk (m nv k : Nat) (a b : Nat → Nat → ℝ) (C : Nat → ℝ) {s o ld r q : Nat} (hs : s + nv ≤ ld) (hq : q < ld) :
    gemm m nv k a b true C (o * ld + s) ld (r * ld + q) = C (r * ld + q) +
      if (o ≤ r ∧ r < o + m) ∧ s ≤ q ∧ q < s + nv then ∑ t ∈ range k, a (r - o) t * b t (q - s) else 0 := by
  unfold gemm
  by_cases hr : o ≤ r
  · obtain ⟨d, rfl⟩ := Nat.exists_eq_add_of_le hr
    have e : (o + d) * ld + q = o * ld + (d * ld + q) := by ring
    by_cases hsq : s ≤ q
    · have e2 : (o + d) * ld + q - (o * ld + s) = d * ld + (q - s) := by omega
      have hh := div_mod_row (r := d) (show q - s < ld by omega)
      rw [e2, hh.1, hh.2, if_pos rfl]
      by_cases hc : d < m ∧ q < s + nv
      · rw [if_pos ⟨by omega, by omega, by omega⟩, if_pos ⟨⟨by omega, by omega⟩, by omega, by omega⟩, show o + d - o = d by omega]
      · rw [if_neg (by omega), if_neg (by omega), add_zero]
    · rw [if_neg (show ¬ ((o ≤ o + d ∧ o + d < o + m) ∧ s ≤ q ∧ q < s + nv) by omega), add_zero, if_neg]
      rintro ⟨h1, h2, h3⟩
      cases d with
      | zero => omega
      | succ d =>
        have e2 : (o + (d + 1)) * ld + q - (o * ld + s) = d * ld + (ld + q - s) := by
          rw [e, Nat.add_mul d 1 ld]; omega
        have hh := div_mod_row (r := d) (show ld + q - s < ld by omega)
        rw [e2, hh.2] at h3
        omega
  · rw [if_neg (show ¬ ((o ≤ r ∧ r < o + m) ∧ s ≤ q ∧ q < s + nv) by omega), add_zero, if_neg]
    rintro ⟨h1, _⟩
    have : (r + 1) * ld ≤ o * ld := Nat.mul_le_mul_right _ (by omega)
    rw [Nat.add_mul] at this
    omega

/-- Position of column `j` of block `m` in row `r` of `Yk_mat`. -/
def cell (nvec M r m j : Nat) : Nat := r * (nvec * M) + (nvec * m + j)

theorem blk_lt {nvec M m j : Nat} (hm : m < M) (hj : j < nvec) : nvec * m + j < nvec * M ∧ nvec * m + nvec ≤ nvec * M := by
  have : nvec * (m + 1) ≤ nvec * M := Nat.mul_le_mul_left _ hm
  rw [Nat.mul_add, Nat.mul_one] at this
  omega

theorem blk_iff {nvec c m j : Nat} (hj : j < nvec) : (nvec * c ≤ nvec * m + j ∧ nvec * m + j < nvec * c + nvec) ↔ c = m := by
  constructor
  · rintro ⟨h1, h2⟩
    rcases Nat.lt_trichotomy c m with h | h | h
    · have : nvec * (c + 1) ≤ nvec * m := Nat.mul_le_mul_left _ h
      rw [Nat.mul_add, Nat.mul_one] at this; omega
    · exact h
    · have : nvec * (m + 1) ≤ nvec * c := Nat.mul_le_mul_left _ h
      rw [Nat.mul_add, Nat.mul_one] at this; omega
  · rintro rfl; omega

/-- A product added to the block of a pair, seen at a cell. -/
theorem gemm_pair {nvec n0 n1 m : Nat} (k : Nat) (a b : Nat → Nat → ℝ) (C : Nat → ℝ) (hn : m = R.rowE n0 - R.rowS n0) (hS : R.rowS n0 ≤ R.rowE n0)
    (hc : (commonLevel R.arr n0 n1).toNat < R.arr.maxLevel) {r l j : Nat} (hl : l < R.arr.maxLevel) (hj : j < nvec) :
    gemm m nvec k a b true C (blkPos R nvec n0 n1) (nvec * R.arr.maxLevel) (cell nvec R.arr.maxLevel r l j) = C (cell nvec R.arr.maxLevel r l j) +
      if InRow R n0 r ∧ (commonLevel R.arr n0 n1).toNat = l then ∑ t ∈ range k, a (r - R.rowS n0) t * b t j else 0 := by
  unfold blkPos cell
  rw [gemm_blk m nvec k a b C (blk_lt hc hj).2 (blk_lt hl hj).1]
  congr 1
  have hiff : ((R.rowS n0 ≤ r ∧ r < R.rowS n0 + m) ∧ nvec * (commonLevel R.arr n0 n1).toNat ≤ nvec * l + j ∧
      nvec * l + j < nvec * (commonLevel R.arr n0 n1).toNat + nvec) ↔ InRow R n0 r ∧ (commonLevel R.arr n0 n1).toNat = l := by
    rw [blk_iff hj]
    unfold InRow; omega
  by_cases hh : InRow R n0 r ∧ (commonLevel R.arr n0 n1).toNat = l
  · rw [if_pos hh, if_pos (hiff.2 hh)]
    apply sum_congr rfl
    intro t _
    rw [hh.2, show nvec * l + j - nvec * l = j by omega]
  · rw [if_neg hh, if_neg (fun x => hh (hiff.1 x))]

/-- Loops whose steps add fixed amounts to observed positions. -/
theorem loop_obs {σ α ι : Type} (f : σ → α → Res σ) (obs : σ → ι → ℝ) (P : ι → Prop) (d : α → ι → ℝ) : ∀ (L : List α),
    (∀ x ∈ L, ∀ s, ∃ s', f s x = .ok s' ∧ ∀ i, P i → obs s' i = obs s i + d x i) →
    ∀ s, ∃ s', loop f L s = .ok s' ∧ ∀ i, P i → obs s' i = obs s i + (L.map fun x => d x i).sum := by
  intro L
  induction L with
  | nil => intro _ s; exact ⟨s, rfl, fun i _ => by simp⟩
  | cons x L ih =>
    intro h s
    obtain ⟨s1, e1, o1⟩ := h x List.mem_cons_self s
    obtain ⟨s2, e2, o2⟩ := ih (fun y hy => h y (List.mem_cons_of_mem _ hy)) s1
    refine ⟨s2, ?_, fun i hi => ?_⟩
    · show (do let s ← f s x; loop f L s) = _
      rw [e1, Res.bind_ok, e2]
    · rw [o2 i hi, o1 i hi, List.map_cons, List.sum_cons, add_assoc]

/-- Column `j` of the random matrix. -/
def colV (nvec : Nat) (vec : Nat → ℝ) (j q : Nat) : ℝ := vec (q * nvec + j)

/-- What an inadmissible pair adds. -/
def cD (R : Rep ℝ) (nvec : Nat) (vec : Nat → ℝ) (get : Nat → Nat → Blk ℝ) (r l j n0 n1 : Nat) : ℝ :=
  if n0 = n1 then 0 else
  if InRow R n0 r ∧ (commonLevel R.arr n0 n1).toNat = l then prodD R (colV nvec vec j) get n0 n1 (r - R.rowS n0) else 0

/-- What an admissible pair adds. -/
def cB (R : Rep ℝ) (W : Nat → Nat → Nat → ℝ) (nvec : Nat) (vec : Nat → ℝ) (get : Nat → Nat → Blk ℝ) (r l j n0 n1 : Nat) : ℝ :=
  if n0 = n1 then 0 else
  if InRow R n0 r ∧ (commonLevel R.arr n0 n1).toNat = l then
    ∑ c ∈ range (get n0 n1).use.1, side R W n0 n1 r c * prodB R W (colV nvec vec j) get n0 n1 c else 0

/-- Two different nodes without common rows. -/
structure Apart (R : Rep ℝ) (a b : Nat) : Prop where
  fst : a < R.arr.nNode
  snd : b < R.arr.nNode
  rows : ∀ r, ¬ (InRow R a r ∧ InRow R b r)

theorem Apart.symm {a b : Nat} (h : Apart R a b) : Apart R b a := ⟨h.snd, h.fst, fun r hr => h.rows r hr.symm⟩

theorem common_lt (hwf : WF R) {a b : Nat} (h : Apart R a b) : 0 ≤ commonLevel R.arr a b ∧ (commonLevel R.arr a b).toNat < R.arr.maxLevel := by
  obtain ⟨h1, h2, _, _⟩ := commonLevel_spec hwf h.fst h.snd h.rows
  have := hwf.tree.levelLe a h.fst
  exact ⟨h1, by omega⟩

theorem samplePairD_ok (hwf : WF R) {nvec : Nat} (vec : Nat → ℝ) (get : Nat → Nat → Blk ℝ) {n0 n1 : Nat} (hne : n0 ≠ n1 → Apart R n0 n1)
    (h1 : (get n0 n1).use.1 = R.rowE n0 - R.rowS n0) (h2 : (get n0 n1).use.2.1 = R.rowE n1 - R.rowS n1) (Y : Nat → ℝ) :
    ∃ Y', samplePairD R nvec vec get n0 Y n1 = .ok Y' ∧ ∀ i : Nat × Nat × Nat, i.2.1 < R.arr.maxLevel ∧ i.2.2 < nvec →
      Y' (cell nvec R.arr.maxLevel i.1 i.2.1 i.2.2) = Y (cell nvec R.arr.maxLevel i.1 i.2.1 i.2.2) + cD R nvec vec get i.1 i.2.1 i.2.2 n0 n1 := by
  unfold samplePairD cD
  by_cases he : n0 = n1
  · exact ⟨Y, if_pos he, fun i _ => by rw [if_pos he, add_zero]⟩
  · have hA := hne he
    have hc := common_lt hwf hA
    have hS := rowS_lt_rowE hwf hA.fst
    dsimp only
    rw [if_neg he, if_neg (by omega), if_pos ⟨h1, h2⟩]
    refine ⟨_, rfl, ?_⟩
    rintro ⟨r, l, j⟩ ⟨hl, hj⟩
    dsimp only at hl hj ⊢
    rw [gemm_pair _ _ _ _ rfl (by omega) hc.2 hl hj, if_neg he]
    congr 1
    split
    · unfold prodD
      rw [h2]
      apply sum_congr rfl
      intro t _
      congr 1
      unfold colV opAt
      simp only [Bool.false_eq_true, if_false]
      congr 1; ring
    · rfl

theorem samplePairB_ok (hwf : WF R) {W : Nat → Nat → Nat → ℝ} {nvec : Nat} (vec : Nat → ℝ) (exU : Nat → Mat ℝ)
    (hex : ∀ v < R.arr.nNode, R.minAdm ≤ R.arr.level v → ExOk R W v (exU v)) (y0 : Y0 ℝ)
    (hy : ∀ v < R.arr.nNode, R.minAdm ≤ R.arr.level v → ∀ l < nvec, FwdDone R W (colV nvec vec l) (col0 nvec l y0) v) (hnv : 0 < nvec)
    (get : Nat → Nat → Blk ℝ) {n0 n1 : Nat} (hA : Apart R n0 n1) (hl0 : R.minAdm ≤ R.arr.level n0) (hf : Fits R n0 n1 (get n0 n1)) (Y : Nat → ℝ) :
    ∃ Y', samplePairB R nvec vec exU y0 get n0 Y n1 = .ok Y' ∧ ∀ i : Nat × Nat × Nat, i.2.1 < R.arr.maxLevel ∧ i.2.2 < nvec →
      Y' (cell nvec R.arr.maxLevel i.1 i.2.1 i.2.2) = Y (cell nvec R.arr.maxLevel i.1 i.2.1 i.2.2) + cB R W nvec vec get i.1 i.2.1 i.2.2 n0 n1 := by
  obtain ⟨h0, h1, hlv, hm, hk⟩ := hf
  have hc := common_lt hwf hA
  have hS := rowS_lt_rowE hwf hA.fst
  have he : n0 ≠ n1 := by
    rintro rfl
    exact hA.rows _ ⟨row_exists hwf hA.fst, row_exists hwf hA.fst⟩
  obtain ⟨x1, x2, x3⟩ := hex n0 h0 hl0
  unfold samplePairB
  dsimp only
  rw [if_neg he, if_neg (show ¬ commonLevel R.arr n0 n1 < 0 by omega)]
  -- the product `exU * tmp`
  have compress : ∀ (z : Nat → Nat → ℝ), (∀ t < (get n0 n1).use.2.1, ∀ l < nvec, z t l = zSide R W (colV nvec vec l) n1 n0 t) →
      R.arr.level n1 ≤ R.arr.level n0 →
      ∀ i : Nat × Nat × Nat, i.2.1 < R.arr.maxLevel ∧ i.2.2 < nvec →
      gemm (exU n0).nrow nvec (exU n0).ncol (exU n0).e
        (opAt false nvec (gemm (get n0 n1).use.1 nvec (get n0 n1).use.2.1 (opAt (get n0 n1).use.2.2.2 (get n0 n1).use.2.2.1 (get n0 n1).data) z false (fun _ => 0) 0 nvec))
        true Y (blkPos R nvec n0 n1) (nvec * R.arr.maxLevel) (cell nvec R.arr.maxLevel i.1 i.2.1 i.2.2) =
      Y (cell nvec R.arr.maxLevel i.1 i.2.1 i.2.2) + cB R W nvec vec get i.1 i.2.1 i.2.2 n0 n1 := by
    rintro z hz hle ⟨r, l, j⟩ ⟨hl, hj⟩
    dsimp only at hl hj ⊢
    rw [gemm_pair _ _ _ _ x1 (by omega) hc.2 hl hj]
    unfold cB
    rw [if_neg he]
    congr 1
    split
    · next hin =>
      have hin1 : R.rowS n0 ≤ r := hin.1.1
      have hin2 : r < R.rowE n0 := hin.1.2
      rw [if_pos hle] at hm
      rw [hm, x2]
      apply sum_congr rfl
      intro c hcc
      rw [mem_range] at hcc
      rw [x3 _ (by omega) c (by omega), show R.rowS n0 + (r - R.rowS n0) = r by omega]
      unfold side
      rw [if_pos hle]
      congr 1
      have ho : ∀ X : Nat → ℝ, opAt false nvec X c j = X (c * nvec + j) := fun X => rfl
      rw [ho, gemm_cell _ _ _ _ _ _ _ hj, if_pos (by omega)]
      unfold prodB
      simp only [Bool.false_eq_true, if_false, zero_add]
      apply sum_congr rfl
      intro t ht
      rw [hz t (mem_range.1 ht) j hj]
    · rfl
  rcases Nat.lt_trichotomy (R.arr.level n0) (R.arr.level n1) with hl | hl | hl
  · rw [if_neg (show ¬ R.arr.level n0 = R.arr.level n1 by omega), if_neg (show ¬ R.arr.level n1 < R.arr.level n0 by omega),
      if_neg (show ¬ R.arr.level n1 < R.minAdm by omega)]
    rw [if_neg (by omega)] at hm
    rw [if_pos (by omega)] at hk
    have hd := hy n1 h1 (by omega)
    have hy0 : (y0 n1).1 = (R.U n1).ncol := (hd 0 hnv).1
    rw [if_pos (by rw [hm, hk, hy0]; exact ⟨rfl, rfl⟩)]
    refine ⟨_, rfl, ?_⟩
    rintro ⟨r, l, j⟩ ⟨hl', hj⟩
    dsimp only at hl' hj ⊢
    rw [gemm_pair _ _ _ _ hm (by omega) hc.2 hl' hj]
    unfold cB
    rw [if_neg he]
    congr 1
    split
    · next hin =>
      have hin1 : R.rowS n0 ≤ r := hin.1.1
      have hin2 : r < R.rowE n0 := hin.1.2
      have : ∀ c, side R W n0 n1 r c * prodB R W (colV nvec vec j) get n0 n1 c = if r = R.rowS n0 + c then prodB R W (colV nvec vec j) get n0 n1 c else 0 := by
        intro c
        unfold side
        rw [if_neg (by omega)]
        split <;> simp
      rw [sum_congr rfl (fun c _ => this c), pick_sum, if_pos (by omega)]
      unfold prodB
      apply sum_congr rfl
      intro t ht
      rw [mem_range, hk] at ht
      rw [← zSide_basis (hd j hj) (by omega) ht]
      rfl
    · rfl
  · rw [if_pos hl, if_neg (show ¬ R.arr.level n1 < R.minAdm by omega)]
    have hm' := hm
    have hk' := hk
    rw [if_pos (by omega)] at hm' hk'
    have hd := hy n1 h1 (by omega)
    have hy0 : (y0 n1).1 = (R.U n1).ncol := (hd 0 hnv).1
    rw [if_pos ⟨⟨by rw [hm', x2], by rw [hk', hy0]⟩, by rw [x1]⟩]
    refine ⟨_, rfl, compress _ ?_ (by omega)⟩
    intro t ht l hl'
    rw [hk'] at ht
    rw [← zSide_basis (hd l hl') (by omega) ht]
    rfl
  · rw [if_neg (show ¬ R.arr.level n0 = R.arr.level n1 by omega), if_pos hl]
    have hm' := hm
    have hk' := hk
    rw [if_pos (by omega)] at hm'
    rw [if_neg (by omega)] at hk'
    rw [if_pos ⟨⟨by rw [hm', x2], by rw [hk']⟩, by rw [x1]⟩]
    refine ⟨_, rfl, compress _ ?_ (by omega)⟩
    intro t ht l hl'
    rw [hk'] at ht
    rw [← zSide_direct hwf h1 hl ht]
    unfold colV opAt
    simp only [Bool.false_eq_true, if_false]
    congr 1; ring

end
end H2Pack.SPD
