import Mathlib.Topology.Order.IntermediateValue
import Mathlib.Topology.Algebra.Order.Field
import Mathlib.Topology.Piecewise
import Verif.Proof.Kernels4
import Verif.Props.Kernels

/-! # C86, C87: the built-in tensor kernels (Stokes, Rotne-Prager-Yamakawa)

`H2Pack.KernSpec.stokes` and `H2Pack.KernSpec.rpy` are the formulas. -/

namespace H2Pack.Kern
open H2Pack.MV (Bimv KMv point BimvSpec MvSpec extBimv)
open H2Pack.KernSpec
open Finset (range)

/-! ## C86: evaluation -/

/-- **C86** (Stokes, evaluation).  Block `(i, j)` of the matrix is the Stokes kernel of point `i` of the first and point `j` of the second array;
nothing else in memory changes. -/
theorem C86_stokes_eval (eta a0 : ℝ) (c0 ld0 n0 c1 ld1 n1 mat ldm : Nat) (hsep : Sep 3 c0 ld0 n0 c1 ld1 n1 mat ldm (3 * n0) (3 * n1))
    (hldm : 3 * n1 ≤ ldm) (w : Nat → ℝ) :
    (∀ i < n0, ∀ j < n1, ∀ a < 3, ∀ b < 3, stokesEval eta a0 c0 ld0 n0 c1 ld1 n1 mat ldm w (mat + (3 * i + a) * ldm + (3 * j + b)) =
      stokes eta a0 (fun d => w (c0 + ld0 * d + i)) (fun d => w (c1 + ld1 * d + j)) a b) ∧
    ∀ q, (∀ i < 3 * n0, ∀ j < 3 * n1, q ≠ mat + i * ldm + j) → stokesEval eta a0 c0 ld0 n0 c1 ld1 n1 mat ldm w q = w q := by
  obtain ⟨h1, h2⟩ := blocks_spec (fun i j w => stokesPair eta a0 c0 ld0 i c1 ld1 j w) n0 n1 mat ldm hldm w (by
    intro w' hw' i hi j hj a ha b hb
    beta_reduce
    rw [stokesPair_eq _ _ _ _ _ _ _ _ _ ha hb, stokesPair_eq _ _ _ _ _ _ _ _ _ ha hb]
    exact stokes_local eta a0 _ _ _ _ (fun d hd => hw' _ fun i' hi' j' hj' => (hsep i' hi' j' hj').1 d hd i hi)
      (fun d hd => hw' _ fun i' hi' j' hj' => (hsep i' hi' j' hj').2 d hd j hj) a ha b hb)
  have e : stokesEval eta a0 c0 ld0 n0 c1 ld1 n1 mat ldm w = (List.range n0).foldl (fun w i => (List.range n1).foldl (fun w j =>
        putBlock w (mat + 3 * i * ldm + 3 * j) ldm (stokesPair eta a0 c0 ld0 i c1 ld1 j w)) w) w := by
    simp only [stokesEval, Nat.add_assoc]
  rw [e]
  refine ⟨fun i hi j hj a ha b hb => ?_, h2⟩
  rw [h1 i hi j hj a ha b hb, stokesPair_eq _ _ _ _ _ _ _ _ _ ha hb]
  rfl

/-- **C86** (RPY, evaluation).  The same for the Rotne-Prager-Yamakawa kernel when the radii are not negative. -/
theorem C86_rpy_eval (eta : ℝ) (c0 ld0 n0 c1 ld1 n1 mat ldm : Nat) (hsep : Sep 4 c0 ld0 n0 c1 ld1 n1 mat ldm (3 * n0) (3 * n1))
    (hldm : 3 * n1 ≤ ldm) (w : Nat → ℝ) (ha0 : ∀ i < n0, 0 ≤ w (c0 + ld0 * 3 + i)) (ha1 : ∀ j < n1, 0 ≤ w (c1 + ld1 * 3 + j)) :
    (∀ i < n0, ∀ j < n1, ∀ a < 3, ∀ b < 3, rpyEval eta c0 ld0 n0 c1 ld1 n1 mat ldm w (mat + (3 * i + a) * ldm + (3 * j + b)) =
      rpy eta (fun d => w (c0 + ld0 * d + i)) (fun d => w (c1 + ld1 * d + j)) a b) ∧
    ∀ q, (∀ i < 3 * n0, ∀ j < 3 * n1, q ≠ mat + i * ldm + j) → rpyEval eta c0 ld0 n0 c1 ld1 n1 mat ldm w q = w q := by
  obtain ⟨h1, h2⟩ := blocks_spec (fun i j w => rpyPair eta c0 ld0 i c1 ld1 j w) n0 n1 mat ldm hldm w (by
    intro w' hw' i hi j hj a ha b hb
    have f0 : ∀ d < 4, pt w' c0 ld0 i d = pt w c0 ld0 i d := fun d hd => hw' _ fun i' hi' j' hj' => (hsep i' hi' j' hj').1 d hd i hi
    have f1 : ∀ d < 4, pt w' c1 ld1 j d = pt w c1 ld1 j d := fun d hd => hw' _ fun i' hi' j' hj' => (hsep i' hi' j' hj').2 d hd j hj
    beta_reduce
    rw [rpyPair_eq _ _ _ _ _ _ _ _ (by rw [f0 3 (by omega)]; exact ha0 i hi) (by rw [f1 3 (by omega)]; exact ha1 j hj) ha hb,
      rpyPair_eq _ _ _ _ _ _ _ _ (ha0 i hi) (ha1 j hj) ha hb]
    exact rpy_local eta _ _ _ _ f0 f1 a ha b hb)
  refine ⟨fun i hi j hj a ha b hb => ?_, h2⟩
  refine (h1 i hi j hj a ha b hb).trans ?_
  rw [rpyPair_eq _ _ _ _ _ _ _ _ (ha0 i hi) (ha1 j hj) ha hb]
  rfl

/-! ## C86: products -/

/-- **C86** (Stokes, product).  In a double precision build the Stokes bi-matvec meets the contract of `kernel_bimv_fptr`, for every vector length. -/
theorem C86_stokes_contract {S : Simd} (hS : S.Ok) (eta a0 : ℝ) : BimvSpec S.len 3 3 (stokes eta a0) (stokesBimv S S.len eta a0) :=
  tensorBimv_spec hS.len (stokes_local eta a0) (stokes_sym_block eta a0) (fun c0 ld0 c1 ld1 w i j => stokesDir S eta a0 w c0 ld0 i c1 ld1 j) stokesAcc
    (fun c0 ld0 c1 ld1 => stokes_good hS eta a0 c0 ld0 c1 ld1)

/-- **C86** (RPY, product).  The same for the RPY bi-matvec. -/
theorem C86_rpy_contract {S : Simd} (hS : S.Ok) (eta : ℝ) : BimvSpec S.len 4 3 (rpy eta) (rpyBimv S S.len eta) :=
  tensorBimv_spec hS.len (rpy_local eta) (rpy_sym_block eta) (fun c0 ld0 c1 ld1 w i j => rpyDir S eta w c0 ld0 i c1 ld1 j) rpyAcc
    (fun c0 ld0 c1 ld1 => rpy_good hS eta c0 ld0 c1 ld1)

/-- **C86** (RPY, one-sided product).  The same for the RPY matvec used by the periodic product. -/
theorem C86_rpy_mv_contract {S : Simd} (hS : S.Ok) (eta : ℝ) : MvSpec S.len 4 3 (rpy eta) (rpyMv S S.len eta) :=
  tensorMv_spec hS.len (rpy_local eta) (fun c0 ld0 c1 ld1 w i j => rpyDir S eta w c0 ld0 i c1 ld1 j)
    (fun c0 ld0 c1 ld1 => rpy_good hS eta c0 ld0 c1 ld1)

/-! ## C86: single precision

`SIMD_LEN_D` is the number of lanes of a vector of doubles; a vector of floats has twice as many.  The loops of the tensor kernels advance by
`SIMD_LEN_D` in every build. -/

theorem store_load (S : Simd) (w : Nat → ℝ) (p : Nat) {v : V} (h : ∀ l, v l = w (p + l)) : store S w p v = w := by
  funext k
  unfold store
  split_ifs with hk
  · rw [h, Nat.add_sub_cancel' hk.1]
  · rfl

theorem tensorRow_frame (S : Simd) (st : Nat) (dir : (Nat → ℝ) → Nat → Nat → Dir) (acc : Dir → V → (Nat → V) → Nat → V → V)
    (ld0 ld1 n1 x0 x1 y0 y1 i : Nat) (w : Nat → ℝ) {q : Nat} (h0 : ∀ k < 3, q ≠ y0 + i + k * ld0) (h1 : q < y1) :
    tensorRow S st dir acc ld0 ld1 n1 x0 x1 y0 y1 i w q = w q := by
  unfold tensorRow
  generalize (n1 + st - 1) / st = m
  have hf : ((List.range m).foldl (fun s t => tensorStep S dir acc ld0 ld1 x0 x1 y1 i s (t * st)) (fun _ => set1 0, w)).2 q = w q := by
    refine foldl_range_ind (fun _ (s : (Nat → V) × (Nat → ℝ)) => s.2 q = w q) _ _ m rfl ?_
    rintro t ⟨s, v⟩ _ ih
    simp only [tensorStep, show List.range 3 = [0, 1, 2] from rfl, List.foldl_cons, List.foldl_nil, store]
    rw [if_neg (by omega), if_neg (by omega), if_neg (by omega)]
    exact ih
  simp only [show List.range 3 = [0, 1, 2] from rfl, List.foldl_cons, List.foldl_nil, add]
  rw [if_neg (h0 2 (by omega)), if_neg (h0 1 (by omega)), if_neg (h0 0 (by omega))]
  exact hf

/-- What a tensor routine with too small a stride gives for one unit input. -/
theorem half_stride {S : Simd} {st : Nat} (hst : 0 < st) (hlen : S.len = 2 * st) {dir : (Nat → ℝ) → Nat → Nat → Dir} {acc : Dir → V → (Nat → V) → Nat → V → V}
    {κ : (Nat → ℝ) → Nat → Nat → Nat → Nat → ℝ} (hG : Good dir acc κ) {x0 x1 y0 y1 : Nat} (e3 : x0 + S.len * 3 ≤ x1) (e4 : x1 + S.len * 3 ≤ y0)
    (e5 : y0 + S.len * 3 ≤ y1) (w : Nat → ℝ) (hw : ∀ q, x0 ≤ q → w q = if q = x0 + st then 1 else 0) :
    (List.range S.len).foldl (fun w i => tensorRow S st dir acc S.len S.len S.len x0 x1 y0 y1 i w) w y0 = 2 * κ w 0 st 0 0 := by
  have hnum : (S.len + st - 1) / st = 2 := by
    rw [hlen, show 2 * st + st - 1 = st * 2 + (st - 1) by omega, Nat.mul_add_div hst, Nat.div_eq_of_lt (by omega)]
  have hstep : ∀ (s : Nat → V) j, (tensorStep S dir acc S.len S.len x0 x1 y1 0 (s, w) j).2 = w ∧
      ∀ l, (tensorStep S dir acc S.len S.len x0 x1 y1 0 (s, w) j).1 0 l = s 0 l + ∑ b ∈ range 3, κ w 0 (j + l) 0 b * w (x0 + j + S.len * b + l) := by
    intro s j
    constructor
    · simp only [tensorStep]
      have hz : ∀ k < 3, ∀ l, acc (dir w 0 j) (dot3 (fun k => bcast w (x1 + 0 + k * S.len)) (dir w 0 j).d) (fun k => bcast w (x1 + 0 + k * S.len)) k
          (load w (y1 + j + k * S.len)) l = w (y1 + j + k * S.len + l) := by
        intro k hk l
        rw [hG _ _ _ _ _ _ _ hk, Finset.sum_eq_zero, add_zero]
        · rfl
        · intro b _
          simp only [bcast]
          rw [hw _ (by omega), if_neg (by omega), mul_zero]
      simp only [show List.range 3 = [0, 1, 2] from rfl, List.foldl_cons, List.foldl_nil]
      rw [store_load S w _ (hz 0 (by omega)), store_load S w _ (hz 1 (by omega)), store_load S w _ (hz 2 (by omega))]
    · intro l
      simp only [tensorStep]
      rw [hG _ _ _ _ _ _ _ (by omega)]
      rfl
  have hrow : tensorRow S st dir acc S.len S.len S.len x0 x1 y0 y1 0 w y0 = 2 * κ w 0 st 0 0 := by
    unfold tensorRow
    rw [hnum]
    simp only [show List.range 2 = [0, 1] from rfl, List.foldl_cons, List.foldl_nil]
    generalize hs1 : tensorStep S dir acc S.len S.len x0 x1 y1 0 (fun _ => set1 0, w) (0 * st) = s1
    obtain ⟨a1, a2⟩ := hstep (fun _ => set1 0) (0 * st)
    rw [hs1] at a1 a2
    have es1 : s1 = (s1.1, w) := by rw [← a1]
    rw [es1]
    generalize hs2 : tensorStep S dir acc S.len S.len x0 x1 y1 0 (s1.1, w) (1 * st) = s2
    obtain ⟨b1, b2⟩ := hstep s1.1 (1 * st)
    rw [hs2] at b1 b2
    rw [b1]
    simp only [show List.range 3 = [0, 1, 2] from rfl, List.foldl_cons, List.foldl_nil, add]
    rw [if_neg (by omega), if_neg (by omega), if_pos (by omega), hw y0 (by omega), if_neg (by omega), zero_add]
    unfold reduce
    have hsel : ∀ j l, (j = 0 ∨ j = st) → l < S.len → ∑ b ∈ range 3, κ w 0 (j + l) 0 b * w (x0 + j + S.len * b + l) = if j + l = st then κ w 0 st 0 0 else 0 := by
      intro j l hj hl
      simp only [Finset.sum_range_succ, Finset.sum_range_zero]
      rw [hw _ (by omega), hw _ (by omega), hw _ (by omega), if_neg (by omega : ¬ x0 + j + S.len * 1 + l = x0 + st), if_neg (by omega : ¬ x0 + j + S.len * 2 + l = x0 + st)]
      by_cases h : j + l = st
      · rw [if_pos (by omega), if_pos h, h]; ring
      · rw [if_neg (by omega), if_neg h]; ring
    rw [Finset.sum_congr rfl fun l hl => by
      rw [b2, a2, hsel _ _ (Or.inl (by omega)) (Finset.mem_range.mp hl), hsel _ _ (Or.inr (by omega)) (Finset.mem_range.mp hl)]]
    rw [Finset.sum_add_distrib, Finset.sum_add_distrib]
    have t1 : ∑ l ∈ range S.len, (if 0 * st + l = st then κ w 0 st 0 0 else 0) = κ w 0 st 0 0 := by
      rw [Finset.sum_eq_single st]
      · rw [if_pos (by omega)]
      · intro l _ hl
        rw [if_neg (by omega)]
      · intro h
        exact absurd (Finset.mem_range.mpr (by omega)) h
    have t2 : ∑ l ∈ range S.len, (if 1 * st + l = st then κ w 0 st 0 0 else 0) = κ w 0 st 0 0 := by
      rw [Finset.sum_eq_single 0]
      · rw [if_pos (by omega)]
      · intro l _ hl
        rw [if_neg (by omega)]
      · intro h
        exact absurd (Finset.mem_range.mpr (by omega)) h
    rw [t1, t2]
    simp only [set1, Finset.sum_const_zero]
    ring
  obtain ⟨m, hm⟩ : ∃ m, S.len = m + 1 := ⟨S.len - 1, by omega⟩
  have hsplit : List.range S.len = 0 :: (List.range m).map Nat.succ := by rw [hm, List.range_succ_eq_map]
  rw [hsplit, List.foldl_cons, List.foldl_map]
  refine foldl_range_ind (fun _ (w' : Nat → ℝ) => w' y0 = 2 * κ w 0 st 0 0) _ _ m hrow ?_
  intro t w' ht ih
  rw [tensorRow_frame S st dir acc S.len S.len S.len x0 x1 y0 y1 _ w' (by intro k hk; omega) (by omega), ih]

theorem half_stride_bimv {S : Simd} {st : Nat} (hst : 0 < st) (hlen : S.len = 2 * st) {dim : Nat} {κ : (Nat → ℝ) → (Nat → ℝ) → Nat → Nat → ℝ} (hl : Local dim κ)
    (dir : Nat → Nat → Nat → Nat → (Nat → ℝ) → Nat → Nat → Dir) (acc : Dir → V → (Nat → V) → Nat → V → V)
    (hG : ∀ c0 ld0 c1 ld1, Good (dir c0 ld0 c1 ld1) acc (fun w i j => κ (pt w c0 ld0 i) (pt w c1 ld1 j)))
    (hne : κ (fun d => if d = 3 then 1 else 0) (fun d => if d = 3 then 1 else 0) 0 0 ≠ 0) :
    ¬ BimvSpec S.len dim 3 κ (fun n0 n1 oT oS oX0 oX1 oY0 oY1 w =>
      (List.range n0).foldl (fun w i => tensorRow S st (dir oT n0 oS n1) acc n0 n1 n1 oX0 oX1 oY0 oY1 i w) w) := by
  intro h
  -- points at the origin with radius 1, one unit input at point `st`
  let oS := dim * S.len
  let oX := oS + dim * S.len
  let w : Nat → ℝ := fun q => if q < oX then (if q % oS / S.len = 3 then 1 else 0) else if q = oX + st then 1 else 0
  obtain ⟨h1, _⟩ := h S.len S.len 0 oS oX (oX + S.len * 3) (oX + S.len * 3 + S.len * 3) (oX + S.len * 3 + S.len * 3 + S.len * 3) w (dvd_refl _) (dvd_refl _)
    (by omega) le_rfl le_rfl le_rfl le_rfl
  have e := h1 0 (by omega) 0 (by omega)
  have hw : ∀ q, oX ≤ q → w q = if q = oX + st then 1 else 0 := fun q hq => if_neg (by omega)
  beta_reduce at e
  rw [Nat.zero_mul, Nat.zero_add, Nat.add_zero, half_stride hst hlen (hG _ _ _ _) le_rfl le_rfl le_rfl w hw, hw _ (by omega), if_neg (by omega), zero_add] at e
  have hb : ∀ {d i : Nat}, d < dim → i < S.len → S.len * d + i < oS ∧ (S.len * d + i) / S.len = d := fun {d i} hd hi => by
    have := Nat.mul_le_mul_left S.len hd
    rw [Nat.mul_succ, Nat.mul_comm S.len dim] at this
    refine ⟨by omega, ?_⟩
    rw [Nat.mul_add_div (by omega), Nat.div_eq_of_lt hi, Nat.add_zero]
  have hp0 : ∀ i < S.len, ∀ d < dim, pt w 0 S.len i d = if d = 3 then 1 else 0 := by
    intro i hi d hd
    obtain ⟨g1, g2⟩ := hb hd hi
    show w (0 + S.len * d + i) = _
    rw [Nat.zero_add]
    show (if S.len * d + i < oX then (if (S.len * d + i) % oS / S.len = 3 then (1 : ℝ) else 0) else _) = _
    rw [if_pos (by omega), Nat.mod_eq_of_lt g1, g2]
  have hp1 : ∀ i < S.len, ∀ d < dim, pt w oS S.len i d = if d = 3 then 1 else 0 := by
    intro i hi d hd
    obtain ⟨g1, g2⟩ := hb hd hi
    show w (oS + S.len * d + i) = _
    show (if oS + S.len * d + i < oX then (if (oS + S.len * d + i) % oS / S.len = 3 then (1 : ℝ) else 0) else _) = _
    rw [if_pos (by omega), Nat.add_assoc, Nat.add_mod_left, Nat.mod_eq_of_lt g1, g2]
  have hκ : ∀ j < S.len, ∀ b < 3, κ (pt w 0 S.len 0) (pt w oS S.len j) 0 b = κ (fun d => if d = 3 then 1 else 0) (fun d => if d = 3 then 1 else 0) 0 b :=
    fun j hj b hb => hl _ _ _ _ (hp0 0 (by omega)) (hp1 j hj) 0 (by omega) b hb
  have hκ' : ∀ j < S.len, ∀ b < 3, κ (point dim (fun k => w (0 + k)) S.len 0) (point dim (fun k => w (oS + k)) S.len j) 0 b =
      κ (fun d => if d = 3 then 1 else 0) (fun d => if d = 3 then 1 else 0) 0 b := by
    intro j hj b hb
    rw [← hκ j hj b hb]
    exact (hl _ _ _ _ (pt_point w 0 S.len 0) (pt_point w oS S.len j) 0 (by omega) b hb).symm
  rw [hκ st (by omega) 0 (by omega)] at e
  rw [Finset.sum_congr rfl fun b hb => Finset.sum_congr rfl fun j hj => by
    rw [hκ' j (Finset.mem_range.mp hj) b (Finset.mem_range.mp hb), hw _ (by omega)]] at e
  have hsum : ∀ b ∈ range 3, ∑ j ∈ range S.len, κ (fun d => if d = 3 then 1 else 0) (fun d => if d = 3 then 1 else 0) 0 b * (if oX + (b * S.len + j) = oX + st then 1 else 0) =
      if b = 0 then κ (fun d => if d = 3 then 1 else 0) (fun d => if d = 3 then 1 else 0) 0 0 else 0 := by
    intro b hb
    by_cases h0 : b = 0
    · subst h0
      rw [if_pos rfl, Finset.sum_eq_single st]
      · rw [if_pos (by omega), mul_one]
      · intro j _ hj
        rw [if_neg (by omega), mul_zero]
      · intro h
        exact absurd (Finset.mem_range.mpr (by omega)) h
    · rw [if_neg h0, Finset.sum_eq_zero]
      intro j _
      have : S.len ≤ b * S.len := Nat.le_mul_of_pos_left _ (by omega)
      rw [if_neg (by omega), mul_zero]
  rw [Finset.sum_congr rfl hsum] at e
  simp only [Finset.sum_range_succ, Finset.sum_range_zero] at e
  norm_num at e
  exact hne (by linarith)

/-- **C86** (single precision).  When a vector has twice as many lanes as the loop advances, as in a build with `DTYPE = float`, the Stokes bi-matvec counts
source points twice and does not meet the contract. -/
theorem C86_stokes_single {S : Simd} (hS : S.Ok) {st : Nat} (hst : 0 < st) (hlen : S.len = 2 * st) {eta a0 : ℝ} (he : eta ≠ 0) (ha : a0 ≠ 0) :
    ¬ BimvSpec S.len 3 3 (stokes eta a0) (stokesBimv S st eta a0) := by
  refine half_stride_bimv hst hlen (stokes_local eta a0) (fun c0 ld0 c1 ld1 w i j => stokesDir S eta a0 w c0 ld0 i c1 ld1 j) stokesAcc
    (fun c0 ld0 c1 ld1 => stokes_good hS eta a0 c0 ld0 c1 ld1) ?_
  unfold stokes
  rw [if_pos (fun _ _ => rfl)]
  simp only [δ, if_true, mul_one]
  have := Real.pi_ne_zero
  positivity

/-- **C86** (single precision, RPY). -/
theorem C86_rpy_single {S : Simd} (hS : S.Ok) {st : Nat} (hst : 0 < st) (hlen : S.len = 2 * st) {eta : ℝ} (he : eta ≠ 0) :
    ¬ BimvSpec S.len 4 3 (rpy eta) (rpyBimv S st eta) := by
  refine half_stride_bimv hst hlen (rpy_local eta) (fun c0 ld0 c1 ld1 w i j => rpyDir S eta w c0 ld0 i c1 ld1 j) rpyAcc
    (fun c0 ld0 c1 ld1 => rpy_good hS eta c0 ld0 c1 ld1) ?_
  have h0 : eucl 3 (fun d => if d = 3 then 1 else 0) (fun d => if d = 3 then 1 else 0) = 0 := by simp [eucl, dist2]
  unfold rpy
  rw [h0]
  simp only [rpyI, rpyR, δ, if_true, sub_self, abs_zero, le_refl, max_self]
  have := Real.pi_ne_zero
  simp [he, this]

/-! ## C87 -/

theorem eucl_comm (x y : Nat → ℝ) : eucl 3 x y = eucl 3 y x := by
  unfold eucl dist2
  congr 1
  exact Finset.sum_congr rfl fun d _ => by ring

theorem unit_comm (x y : Nat → ℝ) (a : Nat) : unit x y a = -unit y x a := by
  unfold unit
  rw [eucl_comm]
  ring

/-- **C87** (symmetry).  The Stokes and RPY matrices are symmetric. -/
theorem C87_stokes_symmetric (eta a0 : ℝ) (x y : Nat → ℝ) (a b : Nat) : stokes eta a0 x y a b = stokes eta a0 y x b a := by
  rw [stokes_alt, stokes_alt, show dist2 3 x y = dist2 3 y x by unfold dist2; exact Finset.sum_congr rfl fun d _ => by ring,
    eucl_comm, unit_comm x y a, unit_comm x y b, show δ a b = δ b a by simp [δ, eq_comm]]
  ring

theorem C87_rpy_symmetric (eta : ℝ) (x y : Nat → ℝ) (a b : Nat) : rpy eta x y a b = rpy eta y x b a := by
  unfold rpy
  rw [unit_comm x y a, unit_comm x y b, eucl_comm x y, show δ a b = δ b a by simp [δ, eq_comm]]
  unfold rpyI rpyR
  rw [abs_sub_comm, max_comm, add_comm (x 3) (y 3), add_comm (x 3 ^ 2) (y 3 ^ 2)]
  rw [show (x 3 - y 3) ^ 2 = (y 3 - x 3) ^ 2 by ring, show 32 * x 3 * y 3 = 32 * y 3 * x 3 by ring]
  ring

/-- **C87** (translation).  Moving all points by the same vector does not change the blocks; the radii stay. -/
theorem C87_stokes_translation (eta a0 : ℝ) (x y t : Nat → ℝ) (a b : Nat) :
    stokes eta a0 (fun d => x d + t d) (fun d => y d + t d) a b = stokes eta a0 x y a b := by
  rw [stokes_alt, stokes_alt]
  unfold unit eucl
  rw [show dist2 3 (fun d => x d + t d) (fun d => y d + t d) = dist2 3 x y by unfold dist2; exact Finset.sum_congr rfl fun d _ => by ring]
  simp only [add_sub_add_right_eq_sub]

theorem C87_rpy_translation (eta : ℝ) (x y t : Nat → ℝ) (ht : t 3 = 0) (a b : Nat) :
    rpy eta (fun d => x d + t d) (fun d => y d + t d) a b = rpy eta x y a b := by
  unfold rpy unit eucl
  rw [show dist2 3 (fun d => x d + t d) (fun d => y d + t d) = dist2 3 x y by unfold dist2; exact Finset.sum_congr rfl fun d _ => by ring]
  simp only [add_sub_add_right_eq_sub, ht, add_zero]

/-- **C87** (no jumps).  The three cases of the RPY tensor (far, overlapping, one sphere inside the other) agree where they meet: for positive
radii both coefficients are continuous functions of the distance. -/
theorem C87_rpy_continuous {p q : ℝ} (hp : 0 < p) (hq : 0 < q) : ContinuousOn (rpyI p q) (Set.Ioi 0) ∧ ContinuousOn (rpyR p q) (Set.Ioi 0) := by
  have hne : ∀ r ∈ Set.Ioi (0 : ℝ), r ≠ 0 := fun r hr => ne_of_gt hr
  have hden : ∀ r ∈ Set.Ioi (0 : ℝ), 32 * p * q * r ^ 3 ≠ 0 := fun r hr => by
    have : (0 : ℝ) < r := hr
    positivity
  have hlt : |p - q| < p + q := by rw [abs_lt]; constructor <;> linarith
  have habs : ∀ r, r = |p - q| → r ^ 2 = (p - q) ^ 2 := by rintro r rfl; exact sq_abs _
  constructor
  · unfold rpyI
    refine ContinuousOn.if (fun r hr => ?_) continuousOn_const ?_
    · obtain ⟨h0, h1⟩ := hr
      have : r = |p - q| := by
        have := frontier_le_subset_eq continuous_id continuous_const h1
        exact this
      have h0' : 0 < r := h0
      rw [if_pos (by linarith)]
      have h2 := habs r this
      rw [div_eq_div_iff (by positivity) (by positivity)]
      rcases le_total p q with hle | hle
      · have hr' : r = q - p := by rw [this, abs_sub_comm, abs_of_nonneg (by linarith)]
        rw [max_eq_right hle, hr']; ring
      · have hr' : r = p - q := by rw [this, abs_of_nonneg (by linarith)]
        rw [max_eq_left hle, hr']; ring
    · refine (ContinuousOn.if (fun r hr => ?_) ?_ ?_).mono Set.inter_subset_left
      · obtain ⟨h0, h1⟩ := hr
        have : r = p + q := frontier_le_subset_eq continuous_id continuous_const h1
        have h0' : 0 < r := h0
        rw [this] at h0' ⊢
        field_simp
        ring
      · refine ContinuousOn.mono (s := Set.Ioi 0) ?_ Set.inter_subset_left
        exact ContinuousOn.div (by fun_prop) (by fun_prop) hden
      · refine ContinuousOn.mono (s := Set.Ioi 0) ?_ Set.inter_subset_left
        refine ContinuousOn.mul (ContinuousOn.div (by fun_prop) (by fun_prop) fun r hr => ?_) (continuousOn_const.add (ContinuousOn.div (by fun_prop) (by fun_prop) fun r hr => ?_))
        · have := hne r hr
          positivity
        · have := hne r hr
          positivity
  · unfold rpyR
    refine ContinuousOn.if (fun r hr => ?_) continuousOn_const ?_
    · obtain ⟨h0, h1⟩ := hr
      have : r = |p - q| := frontier_le_subset_eq continuous_id continuous_const h1
      rw [if_pos (by linarith), habs r this]
      ring
    · refine (ContinuousOn.if (fun r hr => ?_) ?_ ?_).mono Set.inter_subset_left
      · obtain ⟨h0, h1⟩ := hr
        have : r = p + q := frontier_le_subset_eq continuous_id continuous_const h1
        have h0' : 0 < r := h0
        rw [this] at h0' ⊢
        field_simp
        ring
      · refine ContinuousOn.mono (s := Set.Ioi 0) ?_ Set.inter_subset_left
        exact ContinuousOn.div (by fun_prop) (by fun_prop) hden
      · refine ContinuousOn.mono (s := Set.Ioi 0) ?_ Set.inter_subset_left
        refine ContinuousOn.mul (ContinuousOn.div (by fun_prop) (by fun_prop) fun r hr => ?_) (continuousOn_const.sub (ContinuousOn.div (by fun_prop) (by fun_prop) fun r hr => ?_))
        · have := hne r hr
          positivity
        · have := hne r hr
          positivity

/-! ## The hypotheses can be met -/

example : BimvSpec 4 4 3 (rpy 1) (rpyBimv (exactSimd 4) 4 1) := C86_rpy_contract (S := exactSimd 4) (exactSimd_ok (by omega)) 1

/-- AVX in single precision: 8 lanes, the loops advance by 4. -/
example : ¬ BimvSpec 8 3 3 (stokes 1 1) (stokesBimv (exactSimd 8) 4 1 1) :=
  C86_stokes_single (S := exactSimd 8) (exactSimd_ok (by omega)) (by omega) rfl one_ne_zero one_ne_zero

/-- Two spheres against three, coordinates at 0 and 8, matrix at 20. -/
example (w : Nat → ℝ) (h : ∀ q, 0 ≤ w q) : rpyEval 1 0 2 2 8 3 3 20 9 w (20 + (3 * 1 + 2) * 9 + (3 * 2 + 0)) =
    rpy 1 (fun d => w (0 + 2 * d + 1)) (fun d => w (8 + 3 * d + 2)) 2 0 :=
  (C86_rpy_eval 1 0 2 2 8 3 3 20 9 (fun i' hi' j' hj' => ⟨fun k hk i hi => by omega, fun k hk j hj => by omega⟩) le_rfl w (fun _ _ => h _) (fun _ _ => h _)).1
    1 (by omega) 2 (by omega) 2 (by omega) 0 (by omega)

end H2Pack.Kern
