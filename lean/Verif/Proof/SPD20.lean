import Verif.Proof.SPD19

/-! # SPDHSS: truncation with a relative tolerance; ranks of HSS matrices -/

set_option linter.unusedSectionVars false

namespace H2Pack.SPD
open H2Pack.MV (Mat Rep WF kid off kid_mem Nested entry)
open H2Pack.ULV (InRow HSS entry_kids pair_index kid_row kid_row_unique kid_sub kid_index row_desc)
open H2Pack.Part (Arr kids ClusterTree Desc)
open Finset

section
variable {P : Params} {m n : Nat} {a : Nat → Nat → ℝ}

/-- When a pivot vanishes and the first one does not, a positive tolerance leaves fewer columns than pivots before it, or all. -/
theorem vCols_drop {t : ℝ} (ht : 0 < t) {n rho : Nat} {d : Nat → ℝ} (hn : rho < n) (h0 : d 0 ≠ 0) (hz : d rho = 0) :
    vCols t n d = n ∨ (0 < vCols t n d ∧ vCols t n d + 1 ≤ rho) := by
  unfold vCols
  have hsmall : |d rho| < |d 0| * t := by rw [hz, abs_zero]; positivity
  split
  · rename_i k hk
    obtain ⟨_, as, bs, he, hbefore⟩ := List.find?_eq_some_iff_append.1 hk
    have hkle : k ≤ rho := by
      by_contra hlt
      have hidx : as.length = k := by
        have h1 : (List.range n)[as.length]? = some k := by rw [he]; simp
        rw [List.getElem?_range] at h1
        · exact Option.some.inj h1
        · have := congrArg List.length he
          simp at this; omega
      have hmem : rho ∈ as := by
        have h1 : (List.range n)[rho]? = some rho := List.getElem?_range hn
        rw [he, List.getElem?_append_left (by omega)] at h1
        exact List.mem_of_getElem? h1
      have := hbefore rho hmem
      simp only [decide_eq_true_eq, Bool.not_eq_true', decide_eq_false_iff_not] at this
      exact this hsmall
    split
    · right; omega
    · left; rfl
  · left; rfl

/-- The first pivot vanishes only when the matrix does. -/
theorem pivot_first (hL : P.lq.Correct) (hpv : P.lq.Pivoted) (hmn : 0 < min m n) (h0 : (P.lq.geqpf m n a).1 0 0 = 0) : ∀ i < m, ∀ j < n, a i j = 0 := by
  obtain ⟨p, hperm, hp⟩ := hL.qr m n a
  intro i hi j hj
  obtain ⟨j', hj', rfl⟩ : ∃ j' < n, p j' = j := by
    have : j ∈ (List.range n).map p := hperm.mem_iff.2 (List.mem_range.2 hj)
    obtain ⟨j', h1, h2⟩ := List.mem_map.1 this
    exact ⟨j', List.mem_range.1 h1, h2⟩
  rw [hp i hi j' hj']
  refine sum_eq_zero fun t ht => ?_
  have hz : (if t ≤ j' then (P.lq.geqpf m n a).1 t j' else 0) = 0 := by
    split
    · rename_i htj
      have h3 := hpv m n a 0 hmn j' hj' (Nat.zero_le _)
      rw [h0] at h3
      have h4 := single_le_sum (f := fun i => if 0 ≤ i ∧ i ≤ j' then (P.lq.geqpf m n a).1 i j' ^ 2 else 0) (s := range (min m n))
        (fun i _ => by split <;> positivity) ht
      rw [if_pos ⟨Nat.zero_le _, htj⟩] at h4
      have h5 : (P.lq.geqpf m n a).1 t j' ^ 2 ≤ 0 := le_trans h4 (le_trans h3 (by norm_num))
      exact pow_eq_zero_iff (two_ne_zero) |>.1 (le_antisymm h5 (sq_nonneg _))
    · rfl
  rw [hz, mul_zero]

/-- The number of columns of a basis with a positive tolerance, from the rank of the matrix. -/
theorem basisV_tol (hL : P.lq.Correct) (hpv : P.lq.Pivoted) (ht : 0 < P.reltol) {rho : Nat} (hrho : rho < min (min m n) P.maxRank) {F G : Nat → Nat → ℝ}
    (hr : ∀ i < m, ∀ j < n, a i j = ∑ t ∈ range rho, F i t * G t j) (hne : ∃ i < m, ∃ j < n, a i j ≠ 0) :
    (basisV P m n a).ncol = min (min m n) P.maxRank ∨ (0 < (basisV P m n a).ncol ∧ (basisV P m n a).ncol + 1 ≤ rho) := by
  refine vCols_drop ht hrho ?_ ?_
  · intro h0
    obtain ⟨i, hi, j, hj, h⟩ := hne
    exact h (pivot_first hL hpv (by omega) h0 i hi j hj)
  · exact pivot_zero hL hpv (by omega) hr

variable {R : Rep ℝ} {A : Nat → Nat → ℝ} {g : Gh} {H : Rep ℝ} {W : Nat → Nat → Nat → ℝ} {Ty : Nat → Nat → Nat → ℝ} {nvec : Nat}

/-- The same for the basis of a leaf and the rank of its samples. -/
theorem cap_tol (hwf : WF R) (hL : P.lq.Correct) (hpv : P.lq.Pivoted) (ht : 0 < P.reltol) {v : Nat} (hv : v < R.arr.nNode) (h0 : R.arr.nChild v = 0) (hc : Cap P R Ty nvec g v)
    {F G : Nat → Nat → ℝ} {rho : Nat} (hrho : rho < min (min (g.m R v) nvec) P.maxRank)
    (hr : ∀ r, InRow R v r → ∀ j < nvec, Ty (R.arr.level v) r j = ∑ t ∈ range rho, F r t * G t j)
    (hne : ∃ r, InRow R v r ∧ ∃ j < nvec, Ty (R.arr.level v) r j ≠ 0) :
    (g.U v).ncol = min (min (g.m R v) nvec) P.maxRank ∨ (0 < (g.U v).ncol ∧ (g.U v).ncol + 1 ≤ rho) := by
  obtain ⟨k, ki, tmp, c1, c2, c3, c4, c5⟩ := hc
  have c2' : ∀ i < g.m R v, ∀ j < nvec, tmp i j = ∑ s ∈ range (g.m R v), ki i s * Ty (R.arr.level v) (R.rowS v + s) j := by
    intro i hi j hj
    rw [c2 i hi j hj]
    exact sum_congr rfl fun s hs => by rw [lo_leaf_sum hwf hv h0 (mem_range.1 hs) (fun r => Ty (R.arr.level v) r j)]
  have hin : ∀ s < g.m R v, InRow R v (R.rowS v + s) := by
    intro s hs
    rw [m_leaf h0] at hs
    exact ⟨by omega, by omega⟩
  rw [c1]
  refine basisV_tol hL hpv ht hrho (F := fun i t => ∑ s ∈ range (g.m R v), ki i s * F (R.rowS v + s) t) (G := G) ?_ ?_
  · intro i hi j hj
    rw [c2' i hi j hj]
    have : ∀ s ∈ range (g.m R v), ki i s * Ty (R.arr.level v) (R.rowS v + s) j = ∑ t ∈ range rho, ki i s * F (R.rowS v + s) t * G t j := by
      intro s hs
      rw [hr _ (hin s (mem_range.1 hs)) j hj, mul_sum]
      exact sum_congr rfl fun t _ => by ring
    rw [sum_congr rfl this, sum_comm]
    exact sum_congr rfl fun t _ => by rw [sum_mul]
  · by_contra hall
    push Not at hall
    obtain ⟨r, hrv, j, hj, hn⟩ := hne
    have hrs : r - R.rowS v < g.m R v := by rw [m_leaf h0]; have := hrv.1; have := hrv.2; omega
    -- `k ki = 1`
    let K : Matrix (Fin (g.m R v)) (Fin (g.m R v)) ℝ := fun i j => k i j
    let Ki : Matrix (Fin (g.m R v)) (Fin (g.m R v)) ℝ := fun i j => ki i j
    have h1 : Ki * K = 1 := by
      ext i j
      rw [Matrix.mul_apply, Matrix.one_apply]
      have := c5 i i.2 j j.2
      rw [sum_range] at this
      simp only [Fin.ext_iff]
      exact this
    have h2 : K * Ki = 1 := mul_eq_one_comm.1 h1
    have h3 : Ki.mulVec (fun s => Ty (R.arr.level v) (R.rowS v + s) j) = 0 := by
      ext i
      have := c2' i i.2 j hj
      rw [hall i i.2 j hj, sum_range] at this
      exact this.symm
    have h4 : (fun s : Fin (g.m R v) => Ty (R.arr.level v) (R.rowS v + s) j) = 0 := by
      rw [← Matrix.one_mulVec (fun s : Fin (g.m R v) => Ty (R.arr.level v) (R.rowS v + s) j), ← h2, ← Matrix.mulVec_mulVec, h3, Matrix.mulVec_zero]
    have := congrFun h4 ⟨r - R.rowS v, hrs⟩
    beta_reduce at this
    rw [Nat.add_sub_of_le hrv.1] at this
    exact hn this

/-- On the rows of a node below, the basis of a node is a combination of the basis there. -/
theorem basis_desc (hH : HSS H) (hW : Nested H W) {v u : Nat} (d : Desc H.arr v u) : u + 1 < H.arr.nNode → ∀ a < (H.U u).ncol,
    ∃ c : Nat → ℝ, ∀ r, InRow H v r → W u r a = ∑ b ∈ range (H.U v).ncol, W v r b * c b := by
  have hwf := hH.wf
  have T := hwf.tree
  induction d with
  | refl =>
    intro hu a ha
    refine ⟨fun b => if b = a then 1 else 0, fun r _ => ?_⟩
    beta_reduce
    rw [sum_eq_single a]
    · rw [if_pos rfl, mul_one]
    · intro b _ hb; rw [if_neg hb, mul_zero]
    · intro h; exact absurd (mem_range.2 ha) h
  | @step c u hc d ih =>
    intro hu a ha
    have hun : u < H.arr.nNode := by omega
    obtain ⟨k, hk, rfl⟩ := kid_index (R := H) hc
    have hkn := kid_nonroot hwf hun hc
    choose! f hf using ih hkn
    refine ⟨fun b => ∑ e ∈ range (H.U (kid H u k)).ncol, f e b * (H.U u).e (off H u k + e) a, fun r hr => ?_⟩
    have hrk : InRow H (kid H u k) r := row_desc hwf (by omega) d hr
    rw [hW.inner u hun (by rw [hH.min]; exact H2Pack.Part.level_pos T hu) (by omega) r a ha, sum_eq_single k]
    · have : ∀ e ∈ range (H.U (kid H u k)).ncol, W (kid H u k) r e * (H.U u).e (off H u k + e) a =
          ∑ b ∈ range (H.U v).ncol, W v r b * (f e b * (H.U u).e (off H u k + e) a) := by
        intro e he
        rw [hf e (mem_range.1 he) r hr, sum_mul]
        exact sum_congr rfl fun b _ => by ring
      rw [sum_congr rfl this, sum_comm]
      exact sum_congr rfl fun b _ => by rw [mul_sum]
    · intro l hl hne
      rw [mem_range] at hl
      refine sum_eq_zero fun e he => ?_
      have hln := kid_nonroot hwf hun (kid_mem (R := H) hl)
      have : ¬ InRow H (kid H u l) r := fun h => hne (kid_row_unique hwf hun hl hk h hrk)
      rw [H2Pack.MV.nested_zero hwf hW (kid H u l) (by omega) (by rw [hH.min]; exact H2Pack.Part.level_pos T hln) r this e (mem_range.1 he), zero_mul]
    · intro h; exact absurd (mem_range.2 hk) h

/-- The rows of a node outside its diagonal block: combinations of its basis. -/
theorem off_basis (hH : HSS H) (hW : Nested H W) {v u : Nat} (d : Desc H.arr v u) : u < H.arr.nNode → ∀ q, InRow H u q → ¬ InRow H v q →
    ∃ c : Nat → ℝ, ∀ r, InRow H v r → entry H W r q = ∑ b ∈ range (H.U v).ncol, W v r b * c b := by
  have hwf := hH.wf
  have T := hwf.tree
  induction d with
  | refl =>
    intro _ q h1 h2
    exact absurd h1 h2
  | @step c u hc d ih =>
    intro hun q hq hqv
    obtain ⟨k, hk, rfl⟩ := kid_index (R := H) hc
    have hkn := kid_nonroot hwf hun hc
    by_cases hqk : InRow H (kid H u k) q
    · exact ih (by omega) q hqk hqv
    obtain ⟨l, hl, hql⟩ := kid_row hwf hun (by omega) hq
    have hln := kid_nonroot hwf hun (kid_mem (R := H) hl)
    have hkl : k ≠ l := by rintro rfl; exact hqk hql
    -- a combination of the basis of the child
    obtain ⟨M, hM⟩ : ∃ M : Nat → ℝ, ∀ r, InRow H (kid H u k) r → entry H W r q = ∑ a ∈ range (H.U (kid H u k)).ncol, W (kid H u k) r a * M a := by
      rcases Nat.lt_or_gt_of_ne hkl with h | h
      · obtain ⟨i, hi, hp⟩ := pair_index hH hun h hl
        refine ⟨fun a => ∑ c ∈ range (H.U (kid H u l)).ncol, (H.B i).e a c * W (kid H u l) q c, fun r hr => ?_⟩
        rw [(entry_kids hH hW hun h hl hi hp hr hql).1]
        refine sum_congr rfl fun a _ => ?_
        rw [mul_sum]
        exact sum_congr rfl fun c _ => by ring
      · obtain ⟨i, hi, hp⟩ := pair_index hH hun h hk
        refine ⟨fun a => ∑ c ∈ range (H.U (kid H u l)).ncol, W (kid H u l) q c * (H.B i).e c a, fun r hr => ?_⟩
        rw [(entry_kids hH hW hun h hk hi hp hql hr).2, sum_comm]
        refine sum_congr rfl fun a _ => ?_
        rw [mul_sum]
        exact sum_congr rfl fun c _ => by ring
    choose! f hf using fun a ha => basis_desc hH hW d hkn a ha
    refine ⟨fun b => ∑ a ∈ range (H.U (kid H u k)).ncol, f a b * M a, fun r hr => ?_⟩
    rw [hM r (row_desc hwf (by omega) d hr)]
    have : ∀ a ∈ range (H.U (kid H u k)).ncol, W (kid H u k) r a * M a = ∑ b ∈ range (H.U v).ncol, W v r b * (f a b * M a) := by
      intro a ha
      rw [hf a (mem_range.1 ha) r hr, sum_mul]
      exact sum_congr rfl fun b _ => by ring
    rw [sum_congr rfl this, sum_comm]
    exact sum_congr rfl fun b _ => by rw [mul_sum]

/-- The rank of the rows of a node outside its diagonal block is at most the number of columns of its basis. -/
theorem off_rank (hH : HSS H) (hW : Nested H W) {v : Nat} (hv : v < H.arr.nNode) : (offRows H (entry H W) v).rank ≤ (H.U v).ncol := by
  have T := hH.wf.tree
  have hroot : ∀ q < H.size, InRow H (H.arr.nNode - 1) q := by
    intro q hq
    unfold InRow Rep.rowS Rep.rowE
    rw [T.rootS, T.rootE, Nat.mul_comm H.kdim H.nPoint]
    exact ⟨by omega, hq⟩
  have hne := T.nonempty
  choose! c hc using fun q (hq : q < H.size) (hqv : ¬ InRow H v q) => off_basis hH hW (T.desc_root (u := v) (by omega)) (by omega) q (hroot q hq) hqv
  have e : offRows H (entry H W) v =
      (Matrix.of fun (r : Fin H.size) (b : Fin (H.U v).ncol) => if H.rowS v ≤ r.1 ∧ r.1 < H.rowE v then W v r b else 0) *
        Matrix.of fun (b : Fin (H.U v).ncol) (q : Fin H.size) => if H.rowS v ≤ q.1 ∧ q.1 < H.rowE v then 0 else c q b := by
    ext r q
    rw [Matrix.mul_apply]
    simp only [offRows, Matrix.of_apply]
    by_cases h1 : H.rowS v ≤ r.1 ∧ r.1 < H.rowE v
    · by_cases h2 : H.rowS v ≤ q.1 ∧ q.1 < H.rowE v
      · rw [if_neg (fun h => h.2 h2)]
        refine (sum_eq_zero fun b _ => ?_).symm
        rw [if_pos h2, mul_zero]
      · rw [if_pos ⟨h1, h2⟩, hc q q.2 h2 r h1, sum_range]
        refine sum_congr rfl fun b _ => ?_
        rw [if_pos h1, if_neg h2]
    · rw [if_neg (fun h => h1 h.1)]
      refine (sum_eq_zero fun b _ => ?_).symm
      rw [if_neg h1, zero_mul]
  rw [e]
  exact le_trans (Matrix.rank_mul_le_left _ _) (Matrix.rank_le_width _)

end

end H2Pack.SPD
