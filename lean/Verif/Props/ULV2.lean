import Verif.Props.ULV
import Verif.Proof.ULV13
import Verif.Proof.Lapack

/-! # C48: which matrices can be factorized; concrete cases for C32, C33, C34, C48 -/

set_option linter.unusedSectionVars false

namespace H2Pack.ULV
open Matrix
open H2Pack.MV
open H2Pack.Part (Arr kids ClusterTree Desc)

section
variable {R : Rep ℝ} {W : Nat → Nat → Nat → ℝ}

theorem user_posDef (h : WF R) {shift : ℝ} {A : Matrix (Fin R.size) (Fin R.size) ℝ} (hA : Represents R W shift A) :
    A.PosDef ↔ (AllM R W shift).PosDef := by
  obtain ⟨e, _, hr⟩ := represents_iff (W := W) h shift
  rw [← (hr A).1 hA]
  constructor
  · intro hP
    exact hP.submatrix e.injective
  · intro hP
    have := hP.submatrix (e := e.symm) e.symm.injective
    simpa using this

/-- C48: the Cholesky factorization reports success exactly when `A + shift I` is positive definite. -/
theorem C48_chol_iff_posDef {Lp : Lapack ℝ} (hL : Lp.Correct) (hP : Lp.Definite) (lg : ℝ → ℝ) (H : HSS R) (hD : SymD R) (hW : Nested R W)
    {getB getD : Nat → Nat → Option (Blk ℝ)} (hb : Blocks R getB getD) (shift : ℝ) {ord : Nat → List Nat} (ho : Order R ord)
    {A : Matrix (Fin R.size) (Fin R.size) ℝ} (hA : Represents R W shift A) :
    ∃ st, cholFactorize Lp lg R getB getD shift ord = .ok st ∧ (st.ok = true ↔ A.PosDef) := by
  have hT : Topo R ((upOrder R ord).map Prod.snd) := by rw [upOrder_nodes]; exact upNodes_topo ho H
  obtain ⟨st, e, h1, h2⟩ := factor_loop (shift := shift) (chol_shape Lp lg) H hb (upOrder R ord) hT (upOrder_level ho H)
  refine ⟨st, e, ?_⟩
  rw [user_posDef H.wf hA]
  constructor
  · intro hok
    obtain ⟨Hs, inv⟩ := h1 hok
    have hall : ∀ v < R.arr.nNode, v ∈ (upOrder R ord).map Prod.snd := fun v hv => by rw [upOrder_nodes]; exact (upNodes_mem ho H).2 hv
    exact chol_success hL hP lg H hD hW hT hall inv.node
  · intro hp
    by_contra hok
    exact pd_not_failed (chol_shape Lp lg) (chol_pdok hL hP lg) H hW hb hp (h2 (by simpa using hok))

/-- C48: the LU factorization succeeds for every positive definite `A + shift I`. -/
theorem C48_lu_posDef {Lp : Lapack ℝ} (hL : Lp.Correct) (lg : ℝ → ℝ) (H : HSS R) (hW : Nested R W)
    {getB getD : Nat → Nat → Option (Blk ℝ)} (hb : Blocks R getB getD) (shift : ℝ) {ord : Nat → List Nat} (ho : Order R ord)
    {A : Matrix (Fin R.size) (Fin R.size) ℝ} (hA : Represents R W shift A) (hp : A.PosDef) :
    ∃ st, luFactorize Lp lg R getB getD shift ord = .ok st ∧ st.ok = true := by
  obtain ⟨st, e, _, h2⟩ := lu_facts (shift := shift) hL (lg := lg) H hb ho
  refine ⟨st, e, ?_⟩
  by_contra hok
  exact pd_not_failed (lu_shape Lp lg) (lu_pdok hL lg) H hW hb ((user_posDef H.wf hA).1 hp) (h2 (by simpa using hok))

end

/-! ## A concrete case: four points, two leaves -/

/-- Leaves 0 = {0, 1}, 1 = {2, 3}, root 2. -/
def twoTree : Arr ℝ where
  nNode := 3
  nLeaf := 2
  maxLevel := 1
  maxChild := 2
  parent := fun v => [2, 2, -1].getD v 0
  children := fun k => [-1, -1, -1, -1, 0, 1].getD k 0
  nChild := fun v => [0, 0, 2].getD v 0
  level := fun v => [1, 1, 0].getD v 0
  height := fun v => [0, 0, 1].getD v 0
  ptS := fun v => [0, 2, 0].getD v 0
  ptE := fun v => [1, 3, 3].getD v 0
  enbox := fun _ => ⟨fun _ => 0, fun _ => 0⟩
  levelN := fun l => [1, 2].getD l 0
  levelNodes := fun k => [2, 0, 0, 1].getD k 0
  heightN := fun l => [2, 1].getD l 0
  heightNodes := fun k => [0, 1, 2, 0].getD k 0

/-- The user's order is reversed; rank-one bases of ones.  `D` is `[[p, q], [q, r]]` on both leaves and the coupling block is `[b]`. -/
def twoLeaves (p q r b : ℝ) : Rep ℝ where
  arr := twoTree
  nPoint := 4
  kdim := 1
  coordIdx := fun i => 3 - i
  U _ := ⟨2, 1, fun _ _ => 1⟩
  adm := [(0, 1)]
  inadm := []
  B _ := ⟨1, 1, fun _ _ => b⟩
  D _ := ⟨2, 2, fun i j => if i ≠ j then q else if i = 0 then p else r⟩
  minAdm := 1
  mark v := [1, 1, 0].getD v 0

theorem two_tree : ClusterTree twoTree 4 := by
  constructor
  case pad =>
    intro v hv i h1 h2
    have hv' : v < 3 := hv
    have h2' : i < 2 := h2
    interval_cases v <;> interval_cases i <;> first | rfl | exact absurd h1 (by decide)
  case childOfParent =>
    intro c hc
    have hc' : c + 1 < 3 := hc
    have : c < 2 := by omega
    refine ⟨2, by decide, ?_⟩
    interval_cases c <;> decide
  case levelRow =>
    intro l
    rcases l with _ | _ | l
    · decide
    · decide
    · exact Nat.zero_le _
  case levelList =>
    intro l
    rcases l with _ | _ | l
    · decide
    · decide
    · rfl
  case heightRow =>
    intro l
    rcases l with _ | _ | l
    · decide
    · decide
    · exact Nat.zero_le _
  case heightList =>
    intro l
    rcases l with _ | _ | l
    · decide
    · decide
    · rfl
  case tile =>
    intro v hv h0
    have hv' : v < 3 := hv
    interval_cases v
    · exact absurd rfl h0
    · exact absurd rfl h0
    · exact ⟨rfl, by decide, rfl, by decide, rfl⟩
  all_goals decide

theorem two_wf (p q r b : ℝ) : WF (twoLeaves p q r b) where
  tree := two_tree
  kdim := Nat.one_pos
  perm := by
    show ((List.range 4).map fun i => 3 - i).Perm (List.range 4)
    decide
  rank := by intro v _ _; exact Nat.one_pos
  uLeaf := by
    intro v hv _ h0
    have hv' : v < 3 := hv
    interval_cases v
    · rfl
    · rfl
    · exact absurd h0 (show ¬ (2 : Nat) = 0 by decide)
  uInner := by
    intro v hv hl h0
    have hv' : v < 3 := hv
    interval_cases v
    · exact absurd rfl h0
    · exact absurd rfl h0
    · exact absurd hl (show ¬ (1 : Nat) ≤ 0 by decide)
  admNode := by
    intro x hx
    rw [List.mem_singleton.1 hx]
    exact show (0 : Nat) < 3 ∧ (1 : Nat) < 3 by decide
  admLevel := by
    intro x hx
    rw [List.mem_singleton.1 hx]
    exact show (1 : Nat) ≤ max 1 1 by decide
  marked := by
    intro x hx
    rw [List.mem_singleton.1 hx]
    exact show ((1 : Nat) ≤ 1 → (1 : Nat) ≠ 0) ∧ ((1 : Nat) ≤ 1 → (1 : Nat) ≠ 0) by decide
  bRow := by
    intro i hi
    have hi' : i < 1 := hi
    interval_cases i
    rfl
  bCol := by
    intro i hi
    have hi' : i < 1 := hi
    interval_cases i
    rfl
  inadmNode := by intro x hx; cases hx
  d0 := by
    intro i hi
    have hi' : i < 2 := hi
    interval_cases i <;> exact ⟨rfl, rfl⟩
  d1 := by
    intro i hi
    exact absurd hi (Nat.not_lt_zero _)

theorem two_hss (p q r b : ℝ) : HSS (twoLeaves p q r b) where
  wf := two_wf p q r b
  min := rfl
  root := show ¬ (2 : Nat) = 0 by decide
  inadm := rfl
  nodup := List.nodup_singleton _
  pairs := by
    intro x y
    constructor
    · intro h
      cases List.mem_singleton.1 h
      exact ⟨2, show (2 : Nat) < 3 by decide, 0, 1, by decide, show (1 : Nat) < 2 by decide, rfl, rfl⟩
    · rintro ⟨v, hv, k, l, hkl, hl, rfl, rfl⟩
      have hv' : v < 3 := hv
      interval_cases v
      · exact absurd hl (Nat.not_lt_zero _)
      · exact absurd hl (Nat.not_lt_zero _)
      · have hl' : l < 2 := hl
        have hl1 : l = 1 := by omega
        have hk0 : k = 0 := by omega
        subst hl1 hk0
        exact List.mem_singleton.2 rfl
  tall := by intro v _ _; exact (by decide : (1 : Nat) ≤ 2)

theorem two_symD (p q r b : ℝ) : SymD (twoLeaves p q r b) := by
  intro i _ x _ y _
  show (if x ≠ y then q else if x = 0 then p else r) = if y ≠ x then q else if y = 0 then p else r
  by_cases h : x = y
  · subst h; rfl
  · rw [if_pos h, if_pos (Ne.symm h)]

/-- The basis vectors: ones on the rows of the leaf. -/
def twoBasis (v r _c : Nat) : ℝ := if (v = 0 ∧ r < 2) ∨ (v = 1 ∧ 2 ≤ r ∧ r < 4) then 1 else 0

theorem two_nested (p q r b : ℝ) : Nested (twoLeaves p q r b) twoBasis where
  leaf := by
    intro v hv _ h0 x c _
    have hv' : v < 3 := hv
    interval_cases v
    · show twoBasis 0 x c = if 1 * 0 ≤ x ∧ x < 1 * (1 + 1) then 1 else 0
      unfold twoBasis; simp
    · show twoBasis 1 x c = if 1 * 2 ≤ x ∧ x < 1 * (3 + 1) then 1 else 0
      unfold twoBasis; simp
    · exact absurd h0 (show ¬ (2 : Nat) = 0 by decide)
  inner := by
    intro v hv hl h0
    have hv' : v < 3 := hv
    interval_cases v
    · exact absurd rfl h0
    · exact absurd rfl h0
    · exact absurd hl (show ¬ (1 : Nat) ≤ 0 by decide)

/-- Lookups. -/
def twoB (b : ℝ) (_v _w : Nat) : Option (Blk ℝ) := some ⟨1, 1, 1, fun _ => b⟩
def twoD (p q r : ℝ) (_v _w : Nat) : Option (Blk ℝ) := some ⟨2, 2, 2, fun k => if k = 0 then p else if k = 3 then r else q⟩

theorem two_blocks (p q r b : ℝ) : Blocks (twoLeaves p q r b) (twoB b) (twoD p q r) where
  b := by
    intro i hi
    exact ⟨fun _ => b, rfl, fun _ _ _ _ => rfl⟩
  d := by
    intro i hi
    refine ⟨fun k => if k = 0 then p else if k = 3 then r else q, rfl, ?_⟩
    intro x hx y hy
    have hx' : x < 2 := hx
    have hy' : y < 2 := hy
    show (if x * 2 + y = 0 then p else if x * 2 + y = 3 then r else q) = if x ≠ y then q else if x = 0 then p else r
    interval_cases x <;> interval_cases y <;> simp

theorem two_order (p q r b : ℝ) : Order (twoLeaves p q r b) (fun l => ((twoLeaves p q r b).levelList l).reverse) := fun _ => List.reverse_perm _

/-- The matrix, in the order of the user. -/
def twoMat (p q r b s : ℝ) : Matrix (Fin 4) (Fin 4) ℝ :=
  !![r + s, q, b, b; q, p + s, b, b; b, b, r + s, q; b, b, q, p + s]

theorem two_represents (p q r b s : ℝ) : Represents (twoLeaves p q r b) twoBasis s (twoMat p q r b s) := by
  intro i hi a ha j hj c hc x y hx hy
  have hi' : i < 4 := hi
  have hj' : j < 4 := hj
  have ha' : a < 1 := ha
  have hc' : c < 1 := hc
  have ea : a = 0 := by omega
  have ec : c = 0 := by omega
  subst ea ec
  have ex : x = (⟨3 - i, show 3 - i < 4 by clear hx; omega⟩ : Fin 4) := Fin.ext (by rw [hx]; show (3 - i) * 1 + 0 = 3 - i; omega)
  have ey : y = (⟨3 - j, show 3 - j < 4 by clear hy; omega⟩ : Fin 4) := Fin.ext (by rw [hy]; show (3 - j) * 1 + 0 = 3 - j; omega)
  rw [ex, ey]
  show _ = shifted (twoLeaves p q r b) twoBasis s (i * 1 + 0) (j * 1 + 0)
  interval_cases i <;> interval_cases j <;>
    simp [twoMat, shifted, entry, admEntry, blockEntry, side, twoLeaves, twoBasis, Rep.rowS, Rep.rowE, Rep.leaf, Finset.sum_range_succ, twoTree]

/-- `3 I` plus a matrix of ones. -/
theorem two_posDef : (twoMat 4 1 4 1 0).PosDef := by
  have e : twoMat 4 1 4 1 0 = (3 : ℝ) • (1 : Matrix (Fin 4) (Fin 4) ℝ) + vecMulVec (fun _ => 1) (star fun _ => 1) := by
    ext i j
    fin_cases i <;> fin_cases j <;> simp [twoMat, vecMulVec_apply] <;> norm_num
  rw [e]
  exact Matrix.PosDef.add_posSemidef (Matrix.PosDef.one.smul (by norm_num)) (posSemidef_vecMulVec_self_star _)

/-- The hypotheses of C32, C33, C34 and C48 are met, both factorizations succeed, and the solves return the solution. -/
example : ∃ (Lp : Lapack ℝ) (R : Rep ℝ) (W : Nat → Nat → Nat → ℝ) (getB getD : Nat → Nat → Option (Blk ℝ)) (ord : Nat → List Nat)
    (A : Matrix (Fin R.size) (Fin R.size) ℝ) (st st' : FSt ℝ), Lp.Correct ∧ Lp.Definite ∧ HSS R ∧ SymD R ∧ Nested R W ∧ Blocks R getB getD ∧ Order R ord ∧
      Represents R W 0 A ∧ A.PosDef ∧ R.adm ≠ [] ∧
      luFactorize Lp (fun x => Real.log |x|) R getB getD 0 ord = .ok st ∧ st.ok = true ∧
      cholFactorize Lp (fun x => Real.log |x|) R getB getD 0 ord = .ok st' ∧ st'.ok = true ∧
      st.logdet = st'.logdet ∧
      ∀ b : Nat → ℝ, ∃ x x', luSolve Lp R st.fac ord ord (fun _ => 0, fun _ => 0) (fun _ => 7) (fun _ => 7) 3 b = .ok (some x) ∧
        cholSolve Lp R st'.fac ord ord (fun _ => 0, fun _ => 0) (fun _ => 7) (fun _ => 7) 3 b = .ok (some x') ∧
        ∀ r : Fin R.size, x r = x' r := by
  obtain ⟨Lp, hL, hP⟩ := lapack_exists
  have H := two_hss 4 1 4 1
  have hD := two_symD 4 1 4 1
  have hW := two_nested 4 1 4 1
  have hb := two_blocks 4 1 4 1
  have ho := two_order 4 1 4 1
  have hA := two_represents 4 1 4 1 0
  obtain ⟨st, e1, o1⟩ := C48_lu_posDef hL (fun x => Real.log |x|) H hW hb 0 ho hA two_posDef
  obtain ⟨st', e2, o2⟩ := C48_chol_iff_posDef hL hP (fun x => Real.log |x|) H hD hW hb 0 ho hA
  have o2 := o2.2 two_posDef
  refine ⟨Lp, _, _, _, _, _, _, st, st', hL, hP, H, hD, hW, hb, ho, hA, two_posDef, by simp [twoLeaves], e1, o1, e2, o2, ?_, fun b => ?_⟩
  · rw [(C34_lu_logdet hL H hW hb 0 ho e1 o1 hA).2, (C34_chol_logdet hL H hD hW hb 0 ho e2 o2 hA).2]
  · obtain ⟨hdet, x, s1, s2, _⟩ := C32_lu_solve hL _ H hW hb 0 ho ho ho e1 o1 hA (fun _ => 0, fun _ => 0) (fun _ => 7) (fun _ => 7) b
    obtain ⟨_, x', s1', s2', _⟩ := C33_chol_solve hL _ H hD hW hb 0 ho ho ho e2 o2 hA (fun _ => 0, fun _ => 0) (fun _ => 7) (fun _ => 7) b
    refine ⟨x, x', s1, s1', fun r => ?_⟩
    have hinj := Matrix.mulVec_injective_iff_isUnit.2 ((Matrix.isUnit_iff_isUnit_det _).2 (isUnit_iff_ne_zero.2 hdet))
    exact congrFun (hinj (s2.trans s2'.symm)) r

/-! ## A nonsingular matrix that the LU factorization rejects -/

/-- C48: pivoting is local, so the LU factorization can fail for a nonsingular matrix: here `A` has determinant 1, and every correct LAPACK
reports a singular block, in whatever order the nodes are handled. -/
theorem C48_lu_rejects_nonsingular {Lp : Lapack ℝ} (hL : Lp.Correct) (lg : ℝ → ℝ) {ord : Nat → List Nat} (ho : Order (twoLeaves 0 1 2 0) ord) :
    (twoMat 0 1 2 0 0).det = 1 ∧ Represents (twoLeaves 0 1 2 0) twoBasis 0 (twoMat 0 1 2 0 0) ∧
    ∃ st, luFactorize Lp lg (twoLeaves 0 1 2 0) (twoB 0) (twoD 0 1 2) 0 ord = .ok st ∧ st.ok = false := by
  refine ⟨?_, two_represents 0 1 2 0 0, ?_⟩
  · have e : (twoMat 0 1 2 0 0) = (fromBlocks (!![2, 1; 1, 0] : Matrix (Fin 2) (Fin 2) ℝ) 0 0 !![2, 1; 1, 0]).submatrix finSumFinEquiv.symm finSumFinEquiv.symm := by
      ext i j
      fin_cases i <;> fin_cases j <;> simp [twoMat, finSumFinEquiv, Fin.addCases, Fin.subNat, Fin.castLT]
    rw [e, Matrix.det_submatrix_equiv_self, det_fromBlocks_zero₁₂, det_fin_two_of]
    norm_num
  · have H := two_hss 0 1 2 0
    have hT : Topo (twoLeaves 0 1 2 0) ((upOrder (twoLeaves 0 1 2 0) ord).map Prod.snd) := by rw [upOrder_nodes]; exact upNodes_topo ho H
    obtain ⟨st, e, h1, h2⟩ := factor_loop (shift := 0) (lu_shape Lp lg) H (two_blocks 0 1 2 0) (upOrder (twoLeaves 0 1 2 0) ord) hT (upOrder_level ho H)
    refine ⟨st, e, ?_⟩
    by_contra hok
    obtain ⟨Hs, inv⟩ := h1 (by simpa using hok)
    obtain ⟨tU, tD, idx, ha, _, hinfo, _⟩ := inv.node 0 (by rw [upOrder_nodes]; exact (upNodes_mem ho H).2 (show 0 < 3 by decide))
    have hU : tU = ⟨2, 1, fun _ _ => 1⟩ := ha.leafU rfl
    have hmm : mm (twoLeaves 0 1 2 0) 0 = 2 := rfl
    have hD : ∀ a < 2, ∀ b < 2, tD.e a b = if a ≠ b then 1 else if a = 0 then 0 else 2 := by
      intro a ha' b hb'
      have := ha.leafD 0 (show 0 < 2 by decide) rfl a ha' b hb'
      rw [this]
      show (if a ≠ b then (1 : ℝ) else if a = 0 then 0 else 2) + _ = _
      split_ifs <;> norm_num
    have hs : stepAt (luStep Lp lg) (luRoot Lp lg) (twoLeaves 0 1 2 0) 0 tU tD = luStep Lp lg tU tD := if_pos (show (0 : Nat) < 1 by decide)
    rw [hs, hU] at hinfo
    unfold luStep at hinfo
    dsimp only at hinfo
    rw [if_pos (show 0 < 2 - 1 by decide)] at hinfo
    have q0 := hL.qr 2 1 (fun _ _ => 1) (by decide) 1 (by decide) 0 (by decide)
    rw [if_neg (by decide), Finset.sum_range_succ, Finset.sum_range_one, mul_one, mul_one] at q0
    have hz := (hL.luInfo _ _).1 hinfo 0 (by decide)
    have hlu := hL.lu (2 - 1) (fun i j => mulR 2 (mulTL 2 (Lp.orm 2 1 (Lp.geqrf 2 1 fun _ _ => 1).1 (Lp.geqrf 2 1 fun _ _ => 1).2) tD.e)
          (Lp.orm 2 1 (Lp.geqrf 2 1 fun _ _ => 1).1 (Lp.geqrf 2 1 fun _ _ => 1).2) (1 + i) (1 + j)) 0 (by decide) 0 (by decide)
    apply hz
    refine Eq.trans ?_ (hlu.symm.trans ?_)
    · simp
    · have hp := hL.piv (2 - 1) (fun i j => mulR 2 (mulTL 2 (Lp.orm 2 1 (Lp.geqrf 2 1 fun _ _ => 1).1 (Lp.geqrf 2 1 fun _ _ => 1).2) tD.e)
          (Lp.orm 2 1 (Lp.geqrf 2 1 fun _ _ => 1).1 (Lp.geqrf 2 1 fun _ _ => 1).2) (1 + i) (1 + j)) 0 (by decide)
      have hpv := le_antisymm hp.2 hp.1
      unfold interchange
      simp only [List.range_succ, List.range_zero, List.nil_append, List.foldl_cons, List.foldl_nil, if_true]
      rw [hpv]
      simp only [mulR, mulTL, Finset.sum_range_succ, Finset.sum_range_zero, zero_add]
      rw [hD 0 (by decide) 0 (by decide), hD 0 (by decide) 1 (by decide), hD 1 (by decide) 0 (by decide), hD 1 (by decide) 1 (by decide)]
      norm_num
      have q1 := eq_neg_of_add_eq_zero_left q0
      rw [q1]
      ring

/-! ## Solving after a factorization that failed -/

section
variable {K : Type} [Field K] {R : Rep K}

theorem loop_failed {step root : Mat K → Mat K → Step K} {getB getD : Nat → Nat → Option (Blk K)} {shift : K} (P : List (Nat × Nat)) {st : FSt K} (h : st.ok = false) :
    loop (fun st (x : Nat × Nat) => facNode step root R getB getD shift x.1 st x.2) P st = .ok st := by
  induction P with
  | nil => rfl
  | cons x P ih =>
    have e : facNode step root R getB getD shift x.1 st x.2 = .ok st := by unfold facNode; rw [if_pos h]
    show (do let s ← facNode step root R getB getD shift x.1 st x.2; loop _ P s) = _
    rw [e]
    exact ih

theorem failed_missing {step root : Mat K → Mat K → Step K} {getB getD : Nat → Nat → Option (Blk K)} {shift : K} (P : List (Nat × Nat)) : ∀ {st0 st : FSt K},
    (P.map Prod.snd).Nodup → st0.ok = true → (∀ v ∈ P.map Prod.snd, st0.fac v = none) →
    loop (fun st (x : Nat × Nat) => facNode step root R getB getD shift x.1 st x.2) P st0 = .ok st → st.ok = false →
    ∀ w, (P.map Prod.snd).getLast? = some w → st.fac w = none := by
  induction P with
  | nil =>
    intro st0 st _ h _ e hf
    cases e
    rw [h] at hf
    exact absurd hf (by decide)
  | cons x P ih =>
    intro st0 st hn h hv e hf w hw
    have e' : (do let s ← facNode step root R getB getD shift x.1 st0 x.2; loop (fun st (x : Nat × Nat) => facNode step root R getB getD shift x.1 st x.2) P s) = .ok st := e
    rw [List.map_cons, List.nodup_cons] at hn
    cases hs : facNode step root R getB getD shift x.1 st0 x.2 with
    | ub => rw [hs] at e'; cases e'
    | diverge => rw [hs] at e'; cases e'
    | ok st1 =>
      rw [hs] at e'
      have e1 : loop (fun st (x : Nat × Nat) => facNode step root R getB getD shift x.1 st x.2) P st1 = .ok st := e'
      unfold facNode at hs
      rw [if_neg (by rw [h]; decide)] at hs
      cases ha : assemble R getB getD shift x.1 st0.um st0.dm x.2 with
      | ub => rw [ha] at hs; cases hs
      | diverge => rw [ha] at hs; cases hs
      | ok t =>
        rw [ha, Res.bind_ok] at hs
        dsimp only at hs
        generalize (if 0 < x.1 then step t.1 t.2 else root t.1 t.2) = s at hs
        by_cases hi : s.info ≠ 0
        · rw [if_pos hi] at hs
          cases hs
          rw [loop_failed P rfl] at e1
          cases e1
          exact hv w (List.mem_of_getLast? hw)
        · rw [if_neg hi] at hs
          by_cases hl : (nodeIdx R st0 x.2).length = s.l.nrow
          · rw [if_pos hl] at hs
            cases hs
            rcases P with _ | ⟨y, P⟩
            · cases e1
              cases hf
            · refine ih hn.2 rfl ?_ e1 hf w ?_
              · intro v hvP
                have : v ≠ x.2 := fun h => hn.1 (h ▸ hvP)
                show Function.update st0.fac x.2 _ v = none
                rw [Function.update_of_ne this]
                exact hv v (List.mem_cons_of_mem _ hvP)
              · rw [List.map_cons, List.map_cons, List.getLast?_cons_cons, ← List.map_cons] at hw
                exact hw
          · rw [if_neg hl] at hs
            cases hs

/-- After a failure the root has no factors. -/
theorem failed_root {step root : Mat K → Mat K → Step K} {getB getD : Nat → Nat → Option (Blk K)} {shift : K} (H : HSS R) {ord : Nat → List Nat} (ho : Order R ord) {st : FSt K}
    (hst : loop (fun st (x : Nat × Nat) => facNode step root R getB getD shift x.1 st x.2) (upOrder R ord) FSt.init = .ok st) (hok : st.ok = false) :
    st.fac (R.arr.levelNodes 0) = none := by
  have hT : Topo R ((upOrder R ord).map Prod.snd) := by rw [upOrder_nodes]; exact upNodes_topo ho H
  refine failed_missing (upOrder R ord) hT.nodup rfl (fun _ _ => rfl) hst hok _ ?_
  rw [upOrder_split, ord_zero H ho]
  simp

theorem loop_div {σ α : Type} {f : σ → α → Res σ} (hd : ∀ s y, f s y ≠ .diverge) (P : List α) (s : σ) : loop f P s ≠ .diverge := by
  induction P generalizing s with
  | nil => simp [loop]
  | cons y P ih =>
    show (do let s ← f s y; loop f P s) ≠ _
    cases hy : f s y with
    | ub => simp
    | diverge => exact absurd hy (hd s y)
    | ok s' => exact ih s'

theorem loop_ub {σ α : Type} {f : σ → α → Res σ} {P : List α} {x : α} (hx : x ∈ P) (h : ∀ s, f s x = .ub) (hd : ∀ s y, f s y ≠ .diverge) (s : σ) : loop f P s = .ub := by
  induction P generalizing s with
  | nil => cases hx
  | cons y P ih =>
    show (do let s ← f s y; loop f P s) = _
    rcases List.mem_cons.1 hx with e | hx
    · subst e
      rw [h s]; rfl
    · cases hy : f s y with
      | ub => rfl
      | diverge => exact absurd hy (hd s y)
      | ok s' => exact ih hx s'

theorem applyNode_div (loc : NodeFac K → (Nat → K) → Nat → K) (fac : Nat → Option (NodeFac K)) (x : Nat → K) (v : Nat) : applyNode loc fac x v ≠ .diverge := by
  unfold applyNode
  split <;> simp

theorem applyNode_none (loc : NodeFac K → (Nat → K) → Nat → K) {fac : Nat → Option (NodeFac K)} (x : Nat → K) {v : Nat} (h : fac v = none) : applyNode loc fac x v = .ub := by
  unfold applyNode
  rw [h]

theorem luUp_div (Lp : Lapack K) (fac : Nat → Option (NodeFac K)) (x : Nat → K) (v : Nat × Nat) : luUp Lp fac x v ≠ .diverge := by
  unfold luUp
  split
  · simp
  · split
    · exact applyNode_div _ _ _ _
    · simp

/-- C48: after a failed LU factorization, a solve dereferences a null pointer. -/
theorem C48_lu_solve_after_failure (Lp : Lapack K) (lg : K → K) (H : HSS R) {getB getD : Nat → Nat → Option (Blk K)} (shift : K) {ord up down : Nat → List Nat}
    (ho : Order R ord) (hu : Order R up) (hd : Order R down) {st : FSt K} (hst : luFactorize Lp lg R getB getD shift ord = .ok st) (hok : st.ok = false)
    (g : (Nat → Nat) × (Nat → Nat)) (dp dx b : Nat → K) {op : Nat} (h1 : 1 ≤ op) (h3 : op ≤ 3) :
    luSolve Lp R st.fac up down g dp dx op b = .ub := by
  have hn := failed_root H ho hst hok
  have m1 : (0, R.arr.levelNodes 0) ∈ upOrder R up := by rw [upOrder_split, ord_zero H hu]; simp
  have m2 : (0, R.arr.levelNodes 0) ∈ downOrder R down := by
    unfold downOrder
    exact List.mem_flatMap.2 ⟨0, by simp, by rw [ord_zero H hd]; simp⟩
  have u1 : ∀ x, loop (luUp Lp st.fac) (upOrder R up) x = .ub :=
    loop_ub m1 (fun s => by unfold luUp; rw [hn]) (luUp_div Lp st.fac)
  have u2 : ∀ x, loop (luDown Lp st.fac) (downOrder R down) x = .ub :=
    loop_ub m2 (fun s => applyNode_none _ _ hn) (fun s y => applyNode_div _ _ _ _)
  unfold luSolve
  rw [if_neg (by omega)]
  dsimp only
  by_cases ho1 : op % 2 = 1
  · rw [if_pos ho1, u1]; rfl
  · rw [if_neg ho1]
    change (if op / 2 % 2 = 1 then _ else _) = _
    rw [if_pos (show op / 2 % 2 = 1 by omega), u2]; rfl

/-- C48: the same for the Cholesky factorization. -/
theorem C48_chol_solve_after_failure (Lp : Lapack K) (lg : K → K) (H : HSS R) {getB getD : Nat → Nat → Option (Blk K)} (shift : K) {ord up down : Nat → List Nat}
    (ho : Order R ord) {st : FSt K} (hst : cholFactorize Lp lg R getB getD shift ord = .ok st) (hok : st.ok = false)
    (g : (Nat → Nat) × (Nat → Nat)) (dp dx b : Nat → K) {op : Nat} (h1 : 1 ≤ op) (h3 : op ≤ 3) :
    cholSolve Lp R st.fac up down g dp dx op b = .ub := by
  have hn := failed_root H ho hst hok
  have a1 := fun (loc : NodeFac K → (Nat → K) → Nat → K) (x : Nat → K) => applyNode_none loc x hn
  unfold cholSolve
  rw [if_neg (by omega)]
  dsimp only
  by_cases ho1 : op % 2 = 1
  · rw [if_pos ho1]
    simp only [a1]
    cases hl : loop (fun x (lv : Nat × Nat) => applyNode (cholUpLocal Lp) st.fac x lv.2) (upOrder1 R up) (permuteFwd R g b dp) with
    | ub => rfl
    | diverge => exact absurd hl (loop_div (fun s y => applyNode_div _ _ _ _) _ _)
    | ok x => rfl
  · rw [if_neg ho1]
    change (if op / 2 % 2 = 1 then _ else _) = _
    rw [if_pos (show op / 2 % 2 = 1 by omega)]
    simp only [a1]
    rfl

/-- Failures happen: `C48_lu_rejects_nonsingular` gives one for LU; for Cholesky the same matrix, which is not positive definite. -/
example : ∃ (Lp : Lapack ℝ) (st : FSt ℝ), cholFactorize Lp (fun x => Real.log |x|) (twoLeaves 0 1 2 0) (twoB 0) (twoD 0 1 2) 0
    (fun l => ((twoLeaves 0 1 2 0).levelList l).reverse) = .ok st ∧ st.ok = false := by
  obtain ⟨Lp, hL, hP⟩ := lapack_exists
  obtain ⟨st, e, h⟩ := C48_chol_iff_posDef hL hP (fun x => Real.log |x|) (two_hss 0 1 2 0) (two_symD 0 1 2 0) (two_nested 0 1 2 0) (two_blocks 0 1 2 0) 0 (two_order 0 1 2 0)
    (two_represents 0 1 2 0 0)
  refine ⟨Lp, st, e, ?_⟩
  by_contra hok
  have hp := h.1 (by simpa using hok)
  have := hp.diag_pos (i := (1 : Fin 4))
  simp [twoMat] at this

end

end H2Pack.ULV
