import Verif.Props.SPDHSS

/-! # C57-C60: a concrete case -/

namespace H2Pack.SPD
open Matrix
open H2Pack.MV (Mat Rep Blk WF Nested entry kid admEntry inadmEntry blockEntry side)
open H2Pack.Part (Arr Pairs kids ClusterTree calcPairs)
open H2Pack.ULV (HSS shifted Represents InRow Lapack Blocks SymD Order cholFactorize lapack_exists)

/-- Four leaves 0, 1, 3, 4 with one point each, 2 = {0, 1}, 5 = {3, 4}, root 6. -/
def fourTree : Arr ℝ where
  nNode := 7
  nLeaf := 4
  maxLevel := 2
  maxChild := 2
  parent := fun v => [2, 2, 6, 5, 5, 6, -1].getD v 0
  children := fun k => [-1, -1, -1, -1, 0, 1, -1, -1, -1, -1, 3, 4, 2, 5].getD k 0
  nChild := fun v => [0, 0, 2, 0, 0, 2, 2].getD v 0
  level := fun v => [2, 2, 1, 2, 2, 1, 0].getD v 0
  height := fun v => [0, 0, 1, 0, 0, 1, 2].getD v 0
  ptS := fun v => [0, 1, 0, 2, 3, 2, 0].getD v 0
  ptE := fun v => [0, 1, 1, 2, 3, 3, 3].getD v 0
  enbox := fun _ => ⟨fun _ => 0, fun _ => 0⟩
  levelN := fun l => [1, 2, 4].getD l 0
  levelNodes := fun k => [6, 0, 0, 0, 2, 5, 0, 0, 0, 1, 3, 4].getD k 0
  heightN := fun l => [4, 2, 1].getD l 0
  heightNodes := fun k => [0, 1, 3, 4, 2, 5, 0, 0, 6, 0, 0, 0].getD k 0

def fourAdm (a b : Nat) : Bool := (a, b) ∈ [(0, 3), (0, 4), (1, 4)]

def fourPairs : Pairs := ⟨[(0, 3), (0, 4), (1, 4)], [(0, 1), (3, 4), (1, 3)], 2⟩
def fourHss : Pairs := ⟨[(0, 1), (3, 4), (2, 5)], [], 1⟩

/-- Four on the diagonal, one elsewhere. -/
def fourRep : Rep ℝ where
  arr := fourTree
  nPoint := 4
  kdim := 1
  coordIdx := fun i => 3 - i
  U v := if fourTree.level v = 2 then ⟨1, 1, fun _ _ => 1⟩ else ⟨0, 0, fun _ _ => 0⟩
  adm := fourPairs.adm
  inadm := fourPairs.inadm
  B _ := ⟨1, 1, fun _ _ => 1⟩
  D i := ⟨1, 1, fun _ _ => if i < 4 then 4 else 1⟩
  minAdm := 2
  mark _ := 1

theorem four_tree : ClusterTree fourTree 4 := by
  constructor
  case pad =>
    intro v hv i h1 h2
    have hv' : v < 7 := hv
    have h2' : i < 2 := h2
    interval_cases v <;> interval_cases i <;> first | rfl | exact absurd h1 (by decide)
  case childOfParent =>
    intro c hc
    have hc' : c + 1 < 7 := hc
    have : c < 6 := by omega
    interval_cases c
    · exact ⟨2, by decide, by decide⟩
    · exact ⟨2, by decide, by decide⟩
    · exact ⟨6, by decide, by decide⟩
    · exact ⟨5, by decide, by decide⟩
    · exact ⟨5, by decide, by decide⟩
    · exact ⟨6, by decide, by decide⟩
  case levelRow =>
    intro l
    rcases l with _ | _ | _ | l
    · decide
    · decide
    · decide
    · exact Nat.zero_le _
  case levelList =>
    intro l
    rcases l with _ | _ | _ | l
    · decide
    · decide
    · decide
    · rfl
  case heightRow =>
    intro l
    rcases l with _ | _ | _ | l
    · decide
    · decide
    · decide
    · exact Nat.zero_le _
  case heightList =>
    intro l
    rcases l with _ | _ | _ | l
    · decide
    · decide
    · decide
    · rfl
  case tile =>
    intro v hv h0
    have hv' : v < 7 := hv
    interval_cases v <;> first | exact absurd rfl h0 | exact ⟨rfl, by decide, rfl, by decide, rfl⟩
  all_goals decide

theorem four_wf : WF fourRep where
  tree := four_tree
  kdim := Nat.one_pos
  perm := by
    show ((List.range 4).map fun i => 3 - i).Perm (List.range 4)
    decide
  rank := by
    intro v hv hl
    have hv' : v < 7 := hv
    interval_cases v <;> first | exact Nat.one_pos | exact absurd hl (by decide)
  uLeaf := by
    intro v hv hl h0
    have hv' : v < 7 := hv
    interval_cases v <;> first | rfl | exact absurd hl (by decide)
  uInner := by
    intro v hv hl h0
    have hv' : v < 7 := hv
    interval_cases v <;> first | exact absurd rfl h0 | exact absurd hl (by decide)
  admNode := by
    show ∀ x ∈ [(0, 3), (0, 4), (1, 4)], x.1 < 7 ∧ x.2 < 7
    decide
  admLevel := by
    show ∀ x ∈ [(0, 3), (0, 4), (1, 4)], 2 ≤ max (fourTree.level x.1) (fourTree.level x.2)
    decide
  marked := by
    intro x hx
    exact ⟨fun _ => Nat.one_ne_zero, fun _ => Nat.one_ne_zero⟩
  bRow := by
    intro i hi
    have hi' : i < 3 := hi
    interval_cases i <;> rfl
  bCol := by
    intro i hi
    have hi' : i < 3 := hi
    interval_cases i <;> rfl
  inadmNode := by
    show ∀ x ∈ [(0, 1), (3, 4), (1, 3)], x.1 < 7 ∧ x.2 < 7
    decide
  d0 := by
    intro i hi
    have hi' : i < 4 := hi
    interval_cases i <;> exact ⟨rfl, rfl⟩
  d1 := by
    intro i hi
    have hi' : i < 3 := hi
    interval_cases i <;> exact ⟨rfl, rfl⟩

def fourB (_v _w : Nat) : Option (Blk ℝ) := some ⟨1, 1, 1, fun _ => 1⟩
def fourD (v w : Nat) : Option (Blk ℝ) := some ⟨1, 1, 1, fun _ => if v = w then 4 else 1⟩

theorem four_found : Returns (fun fuel => calcPairs fourTree fourAdm 0 fuel (7 - 1) (7 - 1) ⟨[], [], 2⟩) fourPairs := by
  refine ⟨5, fun fuel hf => ?_⟩
  obtain ⟨n, rfl⟩ := Nat.exists_eq_add_of_le' hf
  rfl

theorem four_source : Source fourRep fourPairs fourAdm fourB fourD where
  wf := four_wf
  found := four_found
  adm := rfl
  inadm := rfl
  min := rfl
  low := by
    intro v hv hl
    have hv' : v < 7 := hv
    interval_cases v <;> first | rfl | exact absurd hl (by decide)
  root := by decide
  small := by decide
  b := by
    intro i hi
    exact ⟨fun _ => 1, rfl, fun _ _ _ _ => rfl⟩
  d0 := by
    intro i hi
    have hi' : i < 4 := hi
    refine ⟨fun _ => 4, by unfold fourD; rw [if_pos rfl]; rfl, fun _ _ _ _ => ?_⟩
    show (4 : ℝ) = if i < 4 then 4 else 1
    rw [if_pos hi']
  d1 := by
    intro i hi
    have hi' : i < 3 := hi
    refine ⟨fun _ => 1, ?_, fun _ _ _ _ => ?_⟩
    · unfold fourD
      interval_cases i <;> simp [fourRep, fourPairs, fourTree]
    · show (1 : ℝ) = if 4 + i < 4 then 4 else 1
      rw [if_neg (by omega)]

theorem four_hss : HssPairs fourRep fourHss (fun _ => 1) where
  pairs := by
    intro a b
    constructor
    · intro h
      have h' : (a, b) ∈ [(0, 1), (3, 4), (2, 5)] := h
      simp only [List.mem_cons, Prod.mk.injEq, List.not_mem_nil, or_false] at h'
      rcases h' with ⟨rfl, rfl⟩ | ⟨rfl, rfl⟩ | ⟨rfl, rfl⟩
      · exact ⟨2, by decide, 0, 1, by decide, by decide, rfl, rfl⟩
      · exact ⟨5, by decide, 0, 1, by decide, by decide, rfl, rfl⟩
      · exact ⟨6, by decide, 0, 1, by decide, by decide, rfl, rfl⟩
    · rintro ⟨v, hv, k, l, hkl, hl, rfl, rfl⟩
      have hv' : v < 7 := hv
      have hl2 : l < 2 := by
        have : fourTree.nChild v ≤ 2 := by interval_cases v <;> decide
        exact lt_of_lt_of_le hl this
      obtain rfl : l = 1 := by omega
      obtain rfl : k = 0 := by omega
      interval_cases v <;> first | exact absurd hl (by decide) | decide
  nodup := by decide
  inadm := rfl
  min := rfl
  marked := by
    intro x hx
    exact ⟨Nat.one_ne_zero, Nat.one_ne_zero⟩

/-- Some samples. -/
def fourY (nvec v l : Nat) : Option (Mat ℝ) :=
  if fourTree.nChild v = 0 ∧ l < 2 then some ⟨1, nvec, fun i j => i + j⟩ else some ⟨0, 0, fun _ _ => 0⟩

theorem four_sampled (nvec : Nat) : Sampled fourRep nvec (fourY nvec) where
  leaf := by
    intro v hv h0 l hl
    have hv' : v < 7 := hv
    have hl' : l < 2 := by
      have : fourTree.level v ≤ 2 := by interval_cases v <;> decide
      exact lt_of_lt_of_le hl this
    have hr : fourRep.rowE v - fourRep.rowS v = 1 := by
      interval_cases v <;> first | rfl | exact absurd h0 (by decide)
    rw [hr]
    exact ⟨_, if_pos ⟨h0, hl'⟩⟩
  rest := by
    intro v hv l hl h
    have hv' : v < 7 := hv
    have hl' : l < 2 := hl
    refine ⟨_, if_neg ?_⟩
    rintro ⟨h0, _⟩
    rcases h with h | h
    · exact h h0
    · have : fourTree.level v = 2 := by interval_cases v <;> first | rfl | exact absurd h0 (by decide)
      have h' : fourTree.level v ≤ l := h
      omega

/-- The orders in which nodes and pairs are handled: reversed. -/
theorem four_input {P : Params} (hl : P.lp.Correct) (hd : P.lp.Definite) (hq : P.lq.Correct) (hr : 0 < P.maxRank) {nvec : Nat} (hn : 0 < nvec) :
    ∃ pord, Input P fourRep nvec fourPairs fourHss (fun _ => 1) fourAdm fourB fourD (fun l => (fourRep.levelList l).reverse) pord (fourY nvec) := by
  have hp : ∀ l, ∃ L : List (Nat × Nat), 1 ≤ l → l ≤ 2 → Returns (fun fuel => levelPairs fourTree fourPairs fuel (2 - l)) L := by
    intro l
    by_cases h : 1 ≤ l ∧ l ≤ 2
    · obtain ⟨L, e, _⟩ := C58_level_pairs four_tree (by decide) four_found l h.1 h.2
      exact ⟨L, fun _ _ => e⟩
    · exact ⟨[], fun h1 h2 => absurd ⟨h1, h2⟩ h⟩
  choose L hL using hp
  exact ⟨fun l => (L l).reverse, hl, hd, hq, hr, hn, four_source, four_hss, four_sampled nvec, fun _ => List.reverse_perm _,
    fun l h1 h2 => ⟨L l, hL l h1 h2, List.reverse_perm _⟩⟩

/-- Basis vectors of the H2 matrix. -/
def fourW (v r _c : Nat) : ℝ := if (v = 0 ∧ r = 0) ∨ (v = 1 ∧ r = 1) ∨ (v = 3 ∧ r = 2) ∨ (v = 4 ∧ r = 3) then 1 else 0

theorem four_nested : Nested fourRep fourW where
  leaf := by
    intro v hv hl h0 x c _
    have hv' : v < 7 := hv
    interval_cases v
    · show fourW 0 x c = if 1 * 0 ≤ x ∧ x < 1 * (0 + 1) then 1 else 0
      unfold fourW; simp
    · show fourW 1 x c = if 1 * 1 ≤ x ∧ x < 1 * (1 + 1) then 1 else 0
      unfold fourW
      simp only [show (x = 1) ↔ (1 ≤ x ∧ x < 2) by omega]
      norm_num
    · exact absurd hl (by decide)
    · show fourW 3 x c = if 1 * 2 ≤ x ∧ x < 1 * (2 + 1) then 1 else 0
      unfold fourW
      simp only [show (x = 2) ↔ (2 ≤ x ∧ x < 3) by omega]
      norm_num
    · show fourW 4 x c = if 1 * 3 ≤ x ∧ x < 1 * (3 + 1) then 1 else 0
      unfold fourW
      simp only [show (x = 3) ↔ (3 ≤ x ∧ x < 4) by omega]
      norm_num
    · exact absurd hl (by decide)
    · exact absurd hl (by decide)
  inner := by
    intro v hv hl h0
    have hv' : v < 7 := hv
    interval_cases v <;> first | exact absurd rfl h0 | exact absurd hl (by decide)

/-- The matrix, in the order of the user. -/
def fourMat (s : ℝ) : Matrix (Fin 4) (Fin 4) ℝ := fun i j => if i = j then 4 + s else 1

theorem four_val (s : ℝ) {r q : Nat} (hr : r < 4) (hq : q < 4) : fourMat s ⟨3 - r, by omega⟩ ⟨3 - q, by omega⟩ = if r = q then 4 + s else 1 := by
  unfold fourMat
  refine if_congr ?_ rfl rfl
  rw [Fin.mk.injEq]
  omega

set_option maxHeartbeats 2000000 in
theorem four_represents (s : ℝ) : Represents fourRep fourW s (fourMat s) := by
  intro i hi a ha j hj b hb x y hx hy
  have ha' : a < 1 := ha
  have hb' : b < 1 := hb
  have hi' : i < 4 := hi
  have hj' : j < 4 := hj
  obtain rfl : a = 0 := by omega
  obtain rfl : b = 0 := by omega
  have ex : x = (⟨3 - i, show 3 - i < 4 by clear hx; omega⟩ : Fin 4) := Fin.ext (by rw [hx]; show (3 - i) * 1 + 0 = 3 - i; omega)
  have ey : y = (⟨3 - j, show 3 - j < 4 by clear hy; omega⟩ : Fin 4) := Fin.ext (by rw [hy]; show (3 - j) * 1 + 0 = 3 - j; omega)
  rw [ex, ey]
  show _ = shifted fourRep fourW s (i * 1 + 0) (j * 1 + 0)
  interval_cases i <;> interval_cases j <;>
    simp [fourMat, shifted, entry, admEntry, inadmEntry, blockEntry, side, fourRep, fourPairs, fourW, Rep.rowS, Rep.rowE, Rep.leaf, Finset.sum_range_succ, fourTree]

/-- `(3 + s) I` plus a matrix of ones. -/
theorem four_posDef {s : ℝ} (hs : -3 < s) : (fourMat s).PosDef := by
  have e : fourMat s = (3 + s) • (1 : Matrix (Fin 4) (Fin 4) ℝ) + vecMulVec (fun _ => 1) (star fun _ => 1) := by
    ext i j
    fin_cases i <;> fin_cases j <;> simp [fourMat, vecMulVec_apply] <;> ring
  rw [e]
  exact Matrix.PosDef.add_posSemidef (Matrix.PosDef.one.smul (by linarith)) (posSemidef_vecMulVec_self_star _)

/-- The hypotheses of C57, C58 and C59 are met, also when the diagonal is shifted down, with rank one and a large tolerance. -/
example : ∃ (P : Params) (pord : Nat → List (Nat × Nat)) (H : Rep ℝ), P.maxRank = 1 ∧ P.reltol = 1/2 ∧ P.shift = -1 ∧
    Input P fourRep 3 fourPairs fourHss (fun _ => 1) fourAdm fourB fourD (fun l => (fourRep.levelList l).reverse) pord (fourY 3) ∧
    Nested fourRep fourW ∧ Represents fourRep fourW P.shift (fourMat P.shift) ∧ (fourMat P.shift).PosDef ∧
    Returns (build P fourRep fourPairs fourHss (fun _ => 1) fourAdm fourB fourD (fun l => (fourRep.levelList l).reverse) pord (fourY 3)) (H, true) ∧ HSS H ∧
    ∃ (W' : Nat → Nat → Nat → ℝ), Nested H W' := by
  obtain ⟨lp, h1, h2⟩ := lapack_exists
  obtain ⟨lq, h3⟩ := lapack2_exists
  obtain ⟨pord, I⟩ := four_input (P := ⟨lp, lq, 1, 1/2, -1, fun _ _ _ => 7⟩) h1 h2 h3 (Nat.succ_pos _) (nvec := 3) (by decide)
  have hp : (fourMat (-1)).PosDef := four_posDef (by norm_num)
  obtain ⟨H, e, hH, _⟩ := C57_spdhss_build I four_nested (four_represents (-1)) hp
  exact ⟨_, pord, H, rfl, rfl, rfl, I, four_nested, four_represents _, hp, e, hH, _, H2Pack.MV.basis_nested hH.wf⟩

/-- The hypotheses of C60 are met. -/
example : ∃ (P : Params) (pord : Nat → List (Nat × Nat)) (H : Rep ℝ),
    Returns (build P fourRep fourPairs fourHss (fun _ => 1) fourAdm fourB fourD (fun l => (fourRep.levelList l).reverse) pord (fourY 5)) (H, true) ∧
    ∃ (W' : Nat → Nat → Nat → ℝ), Nested H W' ∧ ∀ r < 4, ∀ q < 4, entry H W' r q = if r = q then 4 else 1 := by
  obtain ⟨lp, h1, h2⟩ := lapack_exists
  obtain ⟨lq, h3⟩ := lapack2_exists
  obtain ⟨pord, I⟩ := four_input (P := ⟨lp, lq, 4, 0, 0, fun _ _ _ => 7⟩) h1 h2 h3 (Nat.succ_pos _) (nvec := 5) (by decide)
  have hp : (fourMat 0).PosDef := four_posDef (by norm_num)
  obtain ⟨H, e, hH, _⟩ := C57_spdhss_build I four_nested (four_represents 0) hp
  refine ⟨_, pord, H, e, _, H2Pack.MV.basis_nested hH.wf, fun r hr q hq => ?_⟩
  rw [C60_full_rank_exact I four_nested (four_represents 0) hp e (le_refl _) (by decide) (le_refl _) (H2Pack.MV.basis_nested hH.wf) r hr q hq]
  have h := four_represents 0 r hr 0 (by decide) q hq 0 (by decide) ⟨3 - r, lt_of_le_of_lt (Nat.sub_le 3 r) (by decide)⟩ ⟨3 - q, lt_of_le_of_lt (Nat.sub_le 3 q) (by decide)⟩
    (show 3 - r = (3 - r) * 1 + 0 by omega) (show 3 - q = (3 - q) * 1 + 0 by omega)
  have e1 : r * fourRep.kdim + 0 = r := Nat.mul_one r
  have e2 : q * fourRep.kdim + 0 = q := Nat.mul_one q
  rw [e1, e2] at h
  exact h.symm.trans ((four_val 0 hr hq).trans (by rw [add_zero]))

end H2Pack.SPD
