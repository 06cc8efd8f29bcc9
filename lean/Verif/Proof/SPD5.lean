import Verif.Proof.SPD4
import Verif.Proof.ULV3
import Verif.Proof.ULV4

set_option linter.unusedSectionVars false

/-! # SPDHSS: the frames of the nodes -/

namespace H2Pack.SPD
open H2Pack.MV (Mat Rep WF kid off kid_mem)
open H2Pack.ULV (InRow off_find off_unique sum_off off_mono off_succ kid_row_unique kid_sub comparable kid_row)
open H2Pack.Part (Arr kids ClusterTree)
open Finset

/-- The bilinear form of the matrix `A`. -/
def bil (N : Nat) (A : Nat → Nat → ℝ) (x y : Nat → ℝ) : ℝ := ∑ r ∈ range N, ∑ q ∈ range N, x r * A r q * y q

theorem bil_congr {N : Nat} {A : Nat → Nat → ℝ} {x x' y y' : Nat → ℝ} (hx : ∀ r < N, x r = x' r) (hy : ∀ r < N, y r = y' r) :
    bil N A x y = bil N A x' y' := by
  unfold bil
  refine sum_congr rfl fun r hr => sum_congr rfl fun q hq => ?_
  rw [hx r (mem_range.1 hr), hy q (mem_range.1 hq)]

theorem bil_left {N : Nat} {A : Nat → Nat → ℝ} (n : Nat) (c : Nat → ℝ) (f : Nat → Nat → ℝ) (y : Nat → ℝ) :
    bil N A (fun r => ∑ i ∈ range n, c i * f i r) y = ∑ i ∈ range n, c i * bil N A (f i) y := by
  unfold bil
  have : ∀ r ∈ range N, ∑ q ∈ range N, (∑ i ∈ range n, c i * f i r) * A r q * y q = ∑ i ∈ range n, c i * ∑ q ∈ range N, f i r * A r q * y q := by
    intro r _
    simp only [mul_sum, sum_mul]
    rw [sum_comm]
    exact sum_congr rfl fun i _ => sum_congr rfl fun q _ => by ring
  rw [sum_congr rfl this, sum_comm]
  exact sum_congr rfl fun i _ => by rw [mul_sum]

theorem bil_right {N : Nat} {A : Nat → Nat → ℝ} (n : Nat) (c : Nat → ℝ) (f : Nat → Nat → ℝ) (x : Nat → ℝ) :
    bil N A x (fun r => ∑ i ∈ range n, c i * f i r) = ∑ i ∈ range n, c i * bil N A x (f i) := by
  unfold bil
  have : ∀ r ∈ range N, ∑ q ∈ range N, x r * A r q * (∑ i ∈ range n, c i * f i q) = ∑ i ∈ range n, c i * ∑ q ∈ range N, x r * A r q * f i q := by
    intro r _
    simp only [mul_sum]
    rw [sum_comm]
    exact sum_congr rfl fun i _ => sum_congr rfl fun q _ => by ring
  rw [sum_congr rfl this, sum_comm]
  exact sum_congr rfl fun i _ => by rw [mul_sum]

/-- The form on combinations of vectors is the quadratic form of the Gram matrix. -/
theorem bil_quad {N : Nat} {A : Nat → Nat → ℝ} (n : Nat) (c : Nat → ℝ) (f : Nat → Nat → ℝ) :
    bil N A (fun r => ∑ i ∈ range n, c i * f i r) (fun r => ∑ i ∈ range n, c i * f i r) = quad n (fun i j => bil N A (f i) (f j)) c := by
  rw [bil_left]
  unfold quad
  refine sum_congr rfl fun i _ => ?_
  rw [bil_right, mul_sum]
  exact sum_congr rfl fun j _ => by ring

theorem bil_symm {N : Nat} {A : Nat → Nat → ℝ} (hA : ∀ r < N, ∀ q < N, A r q = A q r) (x y : Nat → ℝ) : bil N A x y = bil N A y x := by
  unfold bil
  rw [sum_comm]
  refine sum_congr rfl fun r hr => sum_congr rfl fun q hq => ?_
  rw [hA q (mem_range.1 hq) r (mem_range.1 hr)]
  ring

/-- What the construction has made of the nodes so far. -/
structure Gh where
  U : Nat → Mat ℝ
  L : Nat → Nat → Nat → ℝ
  X : Nat → Nat → Nat → ℝ

/-- The representation with the new bases; used for `off`. -/
def Gh.rep (R : Rep ℝ) (g : Gh) : Rep ℝ := { R with U := g.U }

section
variable (R : Rep ℝ) (A : Nat → Nat → ℝ)

/-- Number of rows of a node before it is compressed. -/
def Gh.m (g : Gh) (v : Nat) : Nat := if R.arr.nChild v = 0 then R.rowE v - R.rowS v else off (g.rep R) v (R.arr.nChild v)

/-- The vectors of a node before it is compressed: unit vectors for a leaf, the vectors of the children otherwise. -/
def Gh.lo (g : Gh) (v i r : Nat) : ℝ :=
  if R.arr.nChild v = 0 then (if r = R.rowS v + i then 1 else 0)
  else ∑ k ∈ range (R.arr.nChild v), ∑ b ∈ range (g.U (kid R v k)).ncol, if off (g.rep R) v k + b = i then g.L (kid R v k) b r else 0

/-- The matrix that is factorized: the Gram matrix, with identities on the diagonal for a node with children. -/
noncomputable def Gh.gp (g : Gh) (v i j : Nat) : ℝ := by
  classical
  exact if ∃ k < R.arr.nChild v, (off (g.rep R) v k ≤ i ∧ i < off (g.rep R) v (k + 1)) ∧ off (g.rep R) v k ≤ j ∧ j < off (g.rep R) v (k + 1) then
    (if i = j then 1 else 0) else bil R.size A (g.lo R v i) (g.lo R v j)

/-- A node that has been handled. -/
structure NodeOk (g : Gh) (v : Nat) : Prop where
  rows : (g.U v).nrow = g.m R v
  pos : 0 < (g.U v).ncol
  tall : (g.U v).ncol ≤ (g.U v).nrow
  la : NodeLA (g.m R v) (g.U v).ncol (g.gp R A v) (g.U v).e (g.X v)
  frame : ∀ a < (g.U v).ncol, ∀ r, g.L v a r = ∑ i ∈ range (g.m R v), g.X v a i * g.lo R v i r
  sup : ∀ a < (g.U v).ncol, ∀ r, ¬ InRow R v r → g.L v a r = 0
  ind : ∀ c : Nat → ℝ, (∀ r < R.size, ∑ a ∈ range (g.U v).ncol, c a * g.L v a r = 0) → ∀ a < (g.U v).ncol, c a = 0
  con : ∀ c : Nat → ℝ, bil R.size A (fun r => ∑ a ∈ range (g.U v).ncol, c a * g.L v a r) (fun r => ∑ a ∈ range (g.U v).ncol, c a * g.L v a r) ≤
    ∑ a ∈ range (g.U v).ncol, c a ^ 2

end

section
variable {R : Rep ℝ} {A : Nat → Nat → ℝ} {g : Gh}

theorem lo_leaf {v : Nat} (h0 : R.arr.nChild v = 0) (i r : Nat) : g.lo R v i r = if r = R.rowS v + i then 1 else 0 := by
  unfold Gh.lo; rw [if_pos h0]

theorem lo_inner {v k b : Nat} (hk : k < R.arr.nChild v) (hb : b < (g.U (kid R v k)).ncol) :
    g.lo R v (off (g.rep R) v k + b) = g.L (kid R v k) b := by
  funext r
  unfold Gh.lo
  rw [if_neg (by omega), sum_eq_single k]
  · rw [sum_eq_single b]
    · rw [if_pos rfl]
    · intro b' hb' hne
      rw [if_neg (by omega)]
    · intro h; exact absurd (mem_range.2 hb) h
  · intro k' hk' hne
    apply sum_eq_zero
    intro b' hb'
    rw [if_neg]
    intro he
    exact hne (off_unique (g.rep R) v (mem_range.1 hb') hb he).1
  · intro h; exact absurd (mem_range.2 hk) h

theorem m_leaf {v : Nat} (h0 : R.arr.nChild v = 0) : g.m R v = R.rowE v - R.rowS v := by unfold Gh.m; rw [if_pos h0]
theorem m_inner {v : Nat} (h0 : R.arr.nChild v ≠ 0) : g.m R v = off (g.rep R) v (R.arr.nChild v) := by unfold Gh.m; rw [if_neg h0]

/-- Sums over the rows of a node with children. -/
theorem sum_m {M : Type} [AddCommMonoid M] {v : Nat} (h0 : R.arr.nChild v ≠ 0) (F : Nat → M) :
    ∑ i ∈ range (g.m R v), F i = ∑ k ∈ range (R.arr.nChild v), ∑ b ∈ range (g.U (kid R v k)).ncol, F (off (g.rep R) v k + b) := by
  rw [m_inner h0]
  exact sum_off (g.rep R) v _ F

theorem find_m {v : Nat} (h0 : R.arr.nChild v ≠ 0) {i : Nat} (hi : i < g.m R v) :
    ∃ k < R.arr.nChild v, ∃ b < (g.U (kid R v k)).ncol, i = off (g.rep R) v k + b := by
  rw [m_inner h0] at hi
  exact off_find (g.rep R) v _ _ hi

theorem m_lt {v k b : Nat} (hk : k < R.arr.nChild v) (hb : b < (g.U (kid R v k)).ncol) : off (g.rep R) v k + b < g.m R v := by
  rw [m_inner (by omega)]
  have h1 := off_mono (g.rep R) v (show k + 1 ≤ R.arr.nChild v by omega)
  rw [off_succ] at h1
  have : (((g.rep R).U (kid (g.rep R) v k)).ncol) = (g.U (kid R v k)).ncol := rfl
  omega

theorem gp_leaf {v : Nat} (h0 : R.arr.nChild v = 0) (i j : Nat) : g.gp R A v i j = bil R.size A (g.lo R v i) (g.lo R v j) := by
  unfold Gh.gp
  rw [if_neg]
  rintro ⟨k, hk, _⟩
  omega

theorem gp_inner {v k l a b : Nat} (hk : k < R.arr.nChild v) (hl : l < R.arr.nChild v) (ha : a < (g.U (kid R v k)).ncol) (hb : b < (g.U (kid R v l)).ncol) :
    g.gp R A v (off (g.rep R) v k + a) (off (g.rep R) v l + b) = if k = l then (if a = b then 1 else 0) else bil R.size A (g.L (kid R v k) a) (g.L (kid R v l) b) := by
  have ho : ∀ k, off (g.rep R) v (k + 1) = off (g.rep R) v k + (g.U (kid R v k)).ncol := fun k => off_succ _ _ _
  unfold Gh.gp
  by_cases hkl : k = l
  · subst hkl
    rw [if_pos ⟨k, hk, ⟨by omega, by rw [ho]; omega⟩, by omega, by rw [ho]; omega⟩, if_pos rfl]
    by_cases hab : a = b
    · rw [if_pos hab, if_pos (by omega)]
    · rw [if_neg hab, if_neg (by omega)]
  · rw [if_neg hkl, if_neg, lo_inner hk ha, lo_inner hl hb]
    rintro ⟨j, hj, ⟨h1, h2⟩, h3, h4⟩
    rw [ho] at h2 h4
    have e1 := (off_unique (g.rep R) v (k := k) (l := j) (a := a) (b := off (g.rep R) v k + a - off (g.rep R) v j) ha
      (show _ < (g.U (kid R v j)).ncol by omega) (by omega)).1
    have e2 := (off_unique (g.rep R) v (k := l) (l := j) (a := b) (b := off (g.rep R) v l + b - off (g.rep R) v j) hb
      (show _ < (g.U (kid R v j)).ncol by omega) (by omega)).1
    exact hkl (e1.trans e2.symm)

theorem rowE_le (hwf : WF R) {v : Nat} (hv : v < R.arr.nNode) : R.rowE v ≤ R.size := by
  unfold Rep.rowE Rep.size
  have := hwf.tree.clusterLt v hv
  rw [Nat.mul_comm R.nPoint]
  exact Nat.mul_le_mul_left _ this

theorem row_lt (hwf : WF R) {v r : Nat} (hv : v < R.arr.nNode) (hr : InRow R v r) : r < R.size := lt_of_lt_of_le hr.2 (rowE_le hwf hv)

/-- The vectors of a node before it is compressed vanish outside its rows. -/
theorem lo_sup (hwf : WF R) {v : Nat} (hv : v < R.arr.nNode) (hk : ∀ c ∈ kids R.arr v, NodeOk R A g c) {i : Nat} (hi : i < g.m R v) {r : Nat}
    (hr : ¬ InRow R v r) : g.lo R v i r = 0 := by
  by_cases h0 : R.arr.nChild v = 0
  · rw [lo_leaf h0, if_neg]
    rintro rfl
    rw [m_leaf h0] at hi
    exact hr ⟨by omega, by omega⟩
  · obtain ⟨k, hk', b, hb, rfl⟩ := find_m h0 hi
    rw [lo_inner hk' hb]
    exact (hk _ (kid_mem hk')).sup b hb r fun h => hr (kid_sub hwf hv hk' h)

/-- They are independent. -/
theorem lo_ind (hwf : WF R) {v : Nat} (hv : v < R.arr.nNode) (hk : ∀ c ∈ kids R.arr v, NodeOk R A g c) (c : Nat → ℝ)
    (h : ∀ r < R.size, ∑ i ∈ range (g.m R v), c i * g.lo R v i r = 0) : ∀ i < g.m R v, c i = 0 := by
  intro i hi
  by_cases h0 : R.arr.nChild v = 0
  · have hi' := hi
    rw [m_leaf h0] at hi'
    have := h (R.rowS v + i) (row_lt hwf hv ⟨by omega, by omega⟩)
    rw [sum_eq_single i] at this
    · rw [lo_leaf h0, if_pos rfl, mul_one] at this; exact this
    · intro j _ hj
      rw [lo_leaf h0, if_neg (by omega), mul_zero]
    · intro hn; exact absurd (mem_range.2 hi) hn
  · obtain ⟨k, hk', b, hb, rfl⟩ := find_m h0 hi
    have hN := hk _ (kid_mem hk')
    have hv' := hwf.tree.kid_lt hv (kid_mem (R := R) hk')
    refine hN.ind (fun b => c (off (g.rep R) v k + b)) (fun r hr => ?_) b hb
    by_cases hir : InRow R (kid R v k) r
    · have := h r hr
      rw [sum_m h0, sum_eq_single k] at this
      · refine Eq.trans (sum_congr rfl fun b' hb' => ?_) this
        rw [lo_inner hk' (mem_range.1 hb')]
      · intro l hl hne
        rw [mem_range] at hl
        refine sum_eq_zero fun b' hb' => ?_
        rw [lo_inner hl (mem_range.1 hb'), (hk _ (kid_mem hl)).sup b' (mem_range.1 hb') r, mul_zero]
        intro h2
        exact hne (kid_row_unique hwf hv hl hk' h2 hir)
      · intro hn; exact absurd (mem_range.2 hk') hn
    · refine sum_eq_zero fun b' hb' => ?_
      rw [hN.sup b' (mem_range.1 hb') r hir, mul_zero]

/-- The Gram matrix is below the matrix that is factorized. -/
theorem gram_le {v : Nat} (hk : ∀ c ∈ kids R.arr v, NodeOk R A g c) (c : Nat → ℝ) :
    bil R.size A (fun r => ∑ i ∈ range (g.m R v), c i * g.lo R v i r) (fun r => ∑ i ∈ range (g.m R v), c i * g.lo R v i r) ≤
      quad (g.m R v) (g.gp R A v) c := by
  rw [bil_quad]
  by_cases h0 : R.arr.nChild v = 0
  · exact le_of_eq (quad_congr (fun i _ j _ => (gp_leaf h0 i j).symm) (fun _ _ => rfl))
  · rw [← sub_nonneg]
    have e : quad (g.m R v) (g.gp R A v) c - quad (g.m R v) (fun i j => bil R.size A (g.lo R v i) (g.lo R v j)) c =
        ∑ k ∈ range (R.arr.nChild v), (∑ a ∈ range (g.U (kid R v k)).ncol, c (off (g.rep R) v k + a) ^ 2 -
          bil R.size A (fun r => ∑ a ∈ range (g.U (kid R v k)).ncol, c (off (g.rep R) v k + a) * g.L (kid R v k) a r)
            (fun r => ∑ a ∈ range (g.U (kid R v k)).ncol, c (off (g.rep R) v k + a) * g.L (kid R v k) a r)) := by
      unfold quad
      rw [← sum_sub_distrib, sum_m h0]
      refine sum_congr rfl fun k hk' => ?_
      rw [mem_range] at hk'
      rw [bil_quad (N := R.size) (A := A) _ (fun a => c (off (g.rep R) v k + a)) (fun a => g.L (kid R v k) a)]
      unfold quad
      rw [← sum_sub_distrib]
      refine sum_congr rfl fun a ha => ?_
      rw [mem_range] at ha
      rw [← sum_sub_distrib, sum_m h0, sum_eq_single k]
      · rw [sq]
        have : c (off (g.rep R) v k + a) * c (off (g.rep R) v k + a) =
            ∑ b ∈ range (g.U (kid R v k)).ncol, c (off (g.rep R) v k + a) * (if a = b then 1 else 0) * c (off (g.rep R) v k + b) := by
          rw [sum_eq_single a]
          · rw [if_pos rfl, mul_one]
          · intro b _ hb
            rw [if_neg (fun h => hb h.symm)]; ring
          · intro hn; exact absurd (mem_range.2 ha) hn
        rw [this, ← sum_sub_distrib]
        refine sum_congr rfl fun b hb => ?_
        rw [mem_range] at hb
        rw [gp_inner hk' hk' ha hb, if_pos rfl]
        beta_reduce
        rw [lo_inner hk' ha, lo_inner hk' hb]
      · intro l hl hne
        rw [mem_range] at hl
        refine sum_eq_zero fun b hb => ?_
        rw [mem_range] at hb
        rw [gp_inner hk' hl ha hb, if_neg (fun h => hne h.symm)]
        beta_reduce
        rw [lo_inner hk' ha, lo_inner hl hb, sub_self]
      · intro hn; exact absurd (mem_range.2 hk') hn
    rw [e]
    refine sum_nonneg fun k hk' => ?_
    rw [mem_range] at hk'
    have := (hk _ (kid_mem hk')).con (fun a => c (off (g.rep R) v k + a))
    linarith

/-- `A` is positive definite. -/
def PD (N : Nat) (A : Nat → Nat → ℝ) : Prop := (∀ r < N, ∀ q < N, A r q = A q r) ∧ ∀ x : Nat → ℝ, (∃ r < N, x r ≠ 0) → 0 < bil N A x x

/-- The matrix that is factorized is positive definite. -/
theorem gp_pos (hwf : WF R) (hA : PD R.size A) {v : Nat} (hv : v < R.arr.nNode) (hk : ∀ c ∈ kids R.arr v, NodeOk R A g c) (c : Nat → ℝ)
    (hc : ∃ i < g.m R v, c i ≠ 0) : 0 < quad (g.m R v) (g.gp R A v) c := by
  refine lt_of_lt_of_le (hA.2 _ ?_) (gram_le hk c)
  by_contra hcon
  push Not at hcon
  obtain ⟨i, hi, hne⟩ := hc
  exact hne (lo_ind hwf hv hk c hcon i hi)

theorem gp_symm (hA : PD R.size A) {v i j : Nat} : g.gp R A v i j = g.gp R A v j i := by
  unfold Gh.gp
  by_cases h : ∃ k < R.arr.nChild v, (off (g.rep R) v k ≤ i ∧ i < off (g.rep R) v (k + 1)) ∧ off (g.rep R) v k ≤ j ∧ j < off (g.rep R) v (k + 1)
  · have h' : ∃ k < R.arr.nChild v, (off (g.rep R) v k ≤ j ∧ j < off (g.rep R) v (k + 1)) ∧ off (g.rep R) v k ≤ i ∧ i < off (g.rep R) v (k + 1) := by
      obtain ⟨k, h1, h2, h3⟩ := h; exact ⟨k, h1, h3, h2⟩
    rw [if_pos h, if_pos h']
    by_cases hij : i = j
    · rw [if_pos hij, if_pos hij.symm]
    · rw [if_neg hij, if_neg (fun h => hij h.symm)]
  · have h' : ¬ ∃ k < R.arr.nChild v, (off (g.rep R) v k ≤ j ∧ j < off (g.rep R) v (k + 1)) ∧ off (g.rep R) v k ≤ i ∧ i < off (g.rep R) v (k + 1) := by
      rintro ⟨k, h1, h2, h3⟩; exact h ⟨k, h1, h3, h2⟩
    rw [if_neg h, if_neg h', bil_symm hA.1]

/-- The compression of a node. -/
theorem nodeOk (hwf : WF R) {v : Nat} (hv : v < R.arr.nNode) (hk : ∀ c ∈ kids R.arr v, NodeOk R A g c)
    (hrows : (g.U v).nrow = g.m R v) (hpos : 0 < (g.U v).ncol) (htall : (g.U v).ncol ≤ (g.U v).nrow)
    (hla : NodeLA (g.m R v) (g.U v).ncol (g.gp R A v) (g.U v).e (g.X v))
    (hframe : ∀ a r, g.L v a r = ∑ i ∈ range (g.m R v), g.X v a i * g.lo R v i r) : NodeOk R A g v := by
  have hcomb : ∀ (c : Nat → ℝ) r, ∑ a ∈ range (g.U v).ncol, c a * g.L v a r = ∑ i ∈ range (g.m R v), (∑ a ∈ range (g.U v).ncol, c a * g.X v a i) * g.lo R v i r := by
    intro c r
    simp only [hframe, mul_sum, sum_mul]
    rw [sum_comm]
    exact sum_congr rfl fun i _ => sum_congr rfl fun a _ => by ring
  refine ⟨hrows, hpos, htall, hla, fun a _ r => hframe a r, ?_, ?_, ?_⟩
  · intro a ha r hr
    rw [hframe]
    refine sum_eq_zero fun i hi => ?_
    rw [lo_sup hwf hv hk (mem_range.1 hi) hr, mul_zero]
  · intro c hc a ha
    have h1 := lo_ind hwf hv hk (fun i => ∑ a ∈ range (g.U v).ncol, c a * g.X v a i) (fun r hr => by
      rw [← hcomb c r]; exact hc r hr)
    have h2 := hla.low c
    have h3 : quad (g.m R v) (g.gp R A v) (fun i => ∑ a ∈ range (g.U v).ncol, c a * g.X v a i) = 0 := by
      unfold quad
      refine sum_eq_zero fun i hi => sum_eq_zero fun j hj => ?_
      have := h1 i (mem_range.1 hi)
      beta_reduce
      rw [this]; ring
    rw [h3] at h2
    have := (sum_eq_zero_iff_of_nonneg (fun a _ => sq_nonneg (c a))).1 h2.symm a (mem_range.2 ha)
    exact pow_eq_zero_iff (two_ne_zero) |>.1 this
  · intro c
    rw [← hla.low c]
    refine le_trans (le_of_eq ?_) (gram_le hk fun i => ∑ a ∈ range (g.U v).ncol, c a * g.X v a i)
    exact bil_congr (fun r _ => hcomb c r) (fun r _ => hcomb c r)

/-- What is known about a node depends on the node and its children only. -/
theorem NodeOk.congr {g' : Gh} {v : Nat} (h : NodeOk R A g v) (hU : ∀ u, u = v ∨ u ∈ kids R.arr v → g'.U u = g.U u)
    (hL : ∀ u, u = v ∨ u ∈ kids R.arr v → g'.L u = g.L u) (hX : g'.X v = g.X v) : NodeOk R A g' v := by
  have hkid : ∀ k, k < R.arr.nChild v → g'.U (kid R v k) = g.U (kid R v k) ∧ g'.L (kid R v k) = g.L (kid R v k) :=
    fun k hk => ⟨hU _ (Or.inr (kid_mem hk)), hL _ (Or.inr (kid_mem hk))⟩
  have hoff : ∀ k, k ≤ R.arr.nChild v → off (g'.rep R) v k = off (g.rep R) v k := by
    intro k hk
    unfold off
    refine sum_congr rfl fun j hj => ?_
    rw [mem_range] at hj
    show (g'.U (kid R v j)).ncol = (g.U (kid R v j)).ncol
    rw [(hkid j (by omega)).1]
  have hm : g'.m R v = g.m R v := by
    unfold Gh.m
    rw [hoff _ (le_refl _)]
  have hlo : g'.lo R v = g.lo R v := by
    funext i r
    unfold Gh.lo
    by_cases h0 : R.arr.nChild v = 0
    · rw [if_pos h0, if_pos h0]
    · rw [if_neg h0, if_neg h0]
      refine sum_congr rfl fun k hk => ?_
      rw [mem_range] at hk
      rw [(hkid k hk).1, (hkid k hk).2, hoff k (by omega)]
  have hgp : g'.gp R A v = g.gp R A v := by
    funext i j
    unfold Gh.gp
    rw [hlo]
    have : (∃ k < R.arr.nChild v, (off (g'.rep R) v k ≤ i ∧ i < off (g'.rep R) v (k + 1)) ∧ off (g'.rep R) v k ≤ j ∧ j < off (g'.rep R) v (k + 1)) ↔
        ∃ k < R.arr.nChild v, (off (g.rep R) v k ≤ i ∧ i < off (g.rep R) v (k + 1)) ∧ off (g.rep R) v k ≤ j ∧ j < off (g.rep R) v (k + 1) := by
      refine exists_congr fun k => and_congr_right fun hk => ?_
      rw [hoff k (by omega), hoff (k + 1) (by omega)]
    simp only [this]
  have hUv := hU v (Or.inl rfl)
  have hLv := hL v (Or.inl rfl)
  constructor
  · rw [hUv, hm]; exact h.rows
  · rw [hUv]; exact h.pos
  · rw [hUv]; exact h.tall
  · rw [hUv, hm, hgp, hX]; exact h.la
  · rw [hUv, hLv, hm, hX, hlo]; exact h.frame
  · rw [hUv, hLv]; exact h.sup
  · rw [hUv, hLv]; exact h.ind
  · rw [hUv, hLv]; exact h.con

end

end H2Pack.SPD
