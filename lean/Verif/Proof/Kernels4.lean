import Verif.Proof.Kernels3

/-! The tensor kernels: all points. -/

namespace H2Pack.Kern
open H2Pack.MV (Bimv KMv point BimvSpec MvSpec)
open H2Pack.KernSpec
open Finset (range)

/-- A block depends only on the first `dim` coordinates. -/
def Local (dim : Nat) (κ : (Nat → ℝ) → (Nat → ℝ) → Nat → Nat → ℝ) : Prop :=
  ∀ x x' y y', (∀ d < dim, x d = x' d) → (∀ d < dim, y d = y' d) → ∀ a < 3, ∀ b < 3, κ x y a b = κ x' y' a b

theorem dist2_congr {x x' y y' : Nat → ℝ} (hx : ∀ d < 3, x d = x' d) (hy : ∀ d < 3, y d = y' d) : dist2 3 x y = dist2 3 x' y' := by
  unfold dist2
  exact Finset.sum_congr rfl fun d hd => by rw [hx d (Finset.mem_range.mp hd), hy d (Finset.mem_range.mp hd)]

theorem stokes_local (eta a0 : ℝ) : Local 3 (stokes eta a0) := by
  intro x x' y y' hx hy a ha b hb
  have h := dist2_congr hx hy
  rw [stokes_alt, stokes_alt]
  unfold unit eucl
  rw [h, hx a ha, hx b hb, hy a ha, hy b hb]

theorem rpy_local (eta : ℝ) : Local 4 (rpy eta) := by
  intro x x' y y' hx hy a ha b hb
  have h := dist2_congr (fun d hd => hx d (by omega)) (fun d hd => hy d (by omega))
  unfold rpy unit eucl
  rw [h, hx a (by omega), hx b (by omega), hy a (by omega), hy b (by omega), hx 3 (by omega), hy 3 (by omega)]

theorem pt_point {dim : Nat} (w : Nat → ℝ) (c n i : Nat) : ∀ d < dim, pt w c n i d = point dim (fun k => w (c + k)) n i d := by
  intro d hd
  simp only [point, if_pos hd, pt]
  rw [Nat.mul_comm n d, Nat.add_assoc]

/-- A routine built from a good direction meets the contract. -/
theorem tensorBimv_spec {S : Simd} (hlen : 0 < S.len) {dim : Nat} {κ : (Nat → ℝ) → (Nat → ℝ) → Nat → Nat → ℝ} (hl : Local dim κ)
    (hsym : ∀ x y a b, κ x y a b = κ x y b a) (dir : Nat → Nat → Nat → Nat → (Nat → ℝ) → Nat → Nat → Dir) (acc : Dir → V → (Nat → V) → Nat → V → V)
    (hG : ∀ c0 ld0 c1 ld1, Good (dir c0 ld0 c1 ld1) acc (fun w i j => κ (pt w c0 ld0 i) (pt w c1 ld1 j))) :
    BimvSpec S.len dim 3 κ (fun n0 n1 oT oS oX0 oX1 oY0 oY1 w =>
      (List.range n0).foldl (fun w i => tensorRow S S.len (dir oT n0 oS n1) acc n0 n1 n1 oX0 oX1 oY0 oY1 i w) w) := by
  intro n0 n1 oT oS oX0 oX1 oY0 oY1 w s0 s1 e1 e2 e3 e4 e5
  have hb : ∀ {k n i : Nat}, k < dim → i < n → n * k + i < dim * n := fun {k n i} hk hi => by
    have := Nat.mul_le_mul_left n hk
    rw [Nat.mul_succ, Nat.mul_comm n dim] at this
    omega
  have hloc : ∀ w', (∀ q < oY0, w' q = w q) → ∀ i < n0, ∀ j < n1, ∀ a < 3, ∀ b < 3,
      κ (pt w' oT n0 i) (pt w' oS n1 j) a b = κ (pt w oT n0 i) (pt w oS n1 j) a b := by
    intro w' hw' i hi j hj a ha b hb'
    refine hl _ _ _ _ (fun d hd => hw' _ ?_) (fun d hd => hw' _ ?_) a ha b hb'
    · have := hb hd hi
      omega
    · have := hb hd hj
      omega
  obtain ⟨h1, h2⟩ := tensorAll_spec hlen (hG oT n0 oS n1) s1 e3 e4 e5 w hloc
  have hp : ∀ i j, ∀ a < 3, ∀ b < 3, κ (pt w oT n0 i) (pt w oS n1 j) a b = κ (point dim (fun k => w (oT + k)) n0 i) (point dim (fun k => w (oS + k)) n1 j) a b :=
    fun i j a ha b hb => hl _ _ _ _ (pt_point w oT n0 i) (pt_point w oS n1 j) a ha b hb
  refine ⟨fun a ha i hi => ?_, fun b hb j hj => ?_⟩
  · refine (h1 a ha i hi).trans ?_
    congr 1
    exact Finset.sum_congr rfl fun b hb => Finset.sum_congr rfl fun j _ => by rw [hp i j a ha b (Finset.mem_range.mp hb)]
  · refine (h2 b hb j hj).trans ?_
    rw [Finset.sum_comm]
    congr 1
    exact Finset.sum_congr rfl fun a ha => Finset.sum_congr rfl fun i _ => by rw [hsym, hp i j a (Finset.mem_range.mp ha) b hb]

/-- One row of the one-sided product. -/
theorem mvRow_spec {S : Simd} (hlen : 0 < S.len) {dir : (Nat → ℝ) → Nat → Nat → Dir} {κ : (Nat → ℝ) → Nat → Nat → Nat → Nat → ℝ}
    (hG : Good dir rpyAcc κ) {n0 n1 x y : Nat} (h1 : S.len ∣ n1) {i : Nat} (hi : i < n0) (w : Nat → ℝ) :
    let w' := mvRow S S.len dir n0 n1 n1 x y i w
    (∀ k < 3, w' (y + (k * n0 + i)) = w (y + (k * n0 + i)) + ∑ b ∈ range 3, ∑ j ∈ range n1, κ w i j k b * w (x + (b * n1 + j))) ∧
    ∀ q, (∀ k < 3, q ≠ y + (k * n0 + i)) → w' q = w q := by
  intro w'
  obtain ⟨nb, hnb⟩ := h1
  have hnb' : n1 = nb * S.len := by rw [hnb, Nat.mul_comm]
  have hcnt : (n1 + S.len - 1) / S.len = nb := by
    rw [count_eq hlen ⟨nb, hnb⟩, hnb', Nat.mul_div_cancel _ hlen]
  have hinv := foldl_range_ind (fun t (s : Nat → V) =>
      ∀ k < 3, ∀ l < S.len, s k l = ∑ u ∈ range t, ∑ b ∈ range 3, κ w i (u * S.len + l) k b * w (x + (b * n1 + (u * S.len + l))))
    (fun (s : Nat → V) t =>
      let D := dir w i (t * S.len)
      let xin := fun k => load w (x + t * S.len + n1 * k)
      fun k => rpyAcc D (dot3 xin D.d) xin k (s k)) (fun _ => set1 0) nb
    (by intro k _ l _; simp [set1])
    (by
      intro t s ht ih k hk l hl
      simp only
      rw [hG _ _ _ _ _ _ _ hk, ih k hk l hl, Finset.sum_range_succ _ t]
      congr 1
      refine Finset.sum_congr rfl fun b hb => ?_
      simp only [load]
      rw [show x + t * S.len + n1 * b + l = x + (b * n1 + (t * S.len + l)) by rw [Nat.mul_comm n1 b]; omega])
  have hw' : w' = mvRow S S.len dir n0 n1 n1 x y i w := rfl
  unfold mvRow at hw'
  rw [hcnt] at hw'
  simp only at hw' hinv
  generalize hs : (List.range nb).foldl (fun (s : Nat → V) t => fun k => rpyAcc (dir w i (t * S.len)) (dot3 (fun k => load w (x + t * S.len + n1 * k)) (dir w i (t * S.len)).d)
    (fun k => load w (x + t * S.len + n1 * k)) k (s k)) (fun _ => set1 0) = s at hinv hw'
  have ha := adds_spec w (y + i) n0 3 (by omega) (fun k => reduce S (s k))
  have hred : ∀ k < 3, reduce S (s k) = ∑ b ∈ range 3, ∑ j ∈ range n1, κ w i j k b * w (x + (b * n1 + j)) := by
    intro k hk
    unfold reduce
    rw [Finset.sum_congr rfl fun l hl => hinv k hk l (Finset.mem_range.mp hl),
      sum_blocks (fun j => ∑ b ∈ range 3, κ w i j k b * w (x + (b * n1 + j))), ← hnb', Finset.sum_comm]
  refine ⟨fun k hk => ?_, fun q hq => ?_⟩
  · have := ha.1 k hk
    rw [show y + i + k * n0 = y + (k * n0 + i) by omega] at this
    rw [hw', this, hred k hk]
  · rw [hw', ha.2]
    intro k hk
    have := hq k hk
    omega

theorem tensorMv_spec {S : Simd} (hlen : 0 < S.len) {dim : Nat} {κ : (Nat → ℝ) → (Nat → ℝ) → Nat → Nat → ℝ} (hl : Local dim κ)
    (dir : Nat → Nat → Nat → Nat → (Nat → ℝ) → Nat → Nat → Dir)
    (hG : ∀ c0 ld0 c1 ld1, Good (dir c0 ld0 c1 ld1) rpyAcc (fun w i j => κ (pt w c0 ld0 i) (pt w c1 ld1 j))) :
    MvSpec S.len dim 3 κ (fun n0 n1 oT oS oX oY w =>
      (List.range n0).foldl (fun w i => mvRow S S.len (dir oT n0 oS n1) n0 n1 n1 oX oY i w) w) := by
  intro n0 n1 oT oS oX oY w s0 s1 e1 e2 e3
  have hb : ∀ {k n i : Nat}, k < dim → i < n → n * k + i < dim * n := fun {k n i} hk hi => by
    have := Nat.mul_le_mul_left n hk
    rw [Nat.mul_succ, Nat.mul_comm n dim] at this
    omega
  have hk3 : ∀ {k n j : Nat}, k < 3 → j < n → k * n + j < n * 3 := fun {k n j} hk hj => by
    have := Nat.mul_le_mul_right n hk
    rw [Nat.succ_mul] at this
    omega
  suffices h : (∀ k < 3, ∀ i < n0, (List.range n0).foldl (fun w i => mvRow S S.len (dir oT n0 oS n1) n0 n1 n1 oX oY i w) w (oY + (k * n0 + i)) =
      w (oY + (k * n0 + i)) + ∑ b ∈ range 3, ∑ j ∈ range n1, κ (pt w oT n0 i) (pt w oS n1 j) k b * w (oX + (b * n1 + j))) ∧
      (∀ q, (∀ k < 3, ∀ i < n0, q ≠ oY + (k * n0 + i)) → (List.range n0).foldl (fun w i => mvRow S S.len (dir oT n0 oS n1) n0 n1 n1 oX oY i w) w q = w q) by
    intro a ha i hi
    refine (h.1 a ha i hi).trans ?_
    congr 1
    exact Finset.sum_congr rfl fun b hb => Finset.sum_congr rfl fun j _ => by
      rw [hl _ _ _ _ (pt_point w oT n0 i) (pt_point w oS n1 j) a ha b (Finset.mem_range.mp hb)]
  refine foldl_range_ind (fun m (w' : Nat → ℝ) => (∀ k < 3, ∀ i < m, w' (oY + (k * n0 + i)) =
      w (oY + (k * n0 + i)) + ∑ b ∈ range 3, ∑ j ∈ range n1, κ (pt w oT n0 i) (pt w oS n1 j) k b * w (oX + (b * n1 + j))) ∧
      (∀ q, (∀ k < 3, ∀ i < m, q ≠ oY + (k * n0 + i)) → w' q = w q)) _ w n0 ⟨by intro k _ i hi; omega, fun _ _ => rfl⟩ ?_
  rintro m v hm ⟨ih0, ih1⟩
  have hlow : ∀ q < oY, v q = w q := fun q hq => ih1 q fun k hk i hi => by omega
  obtain ⟨r0, r1⟩ := mvRow_spec hlen (hG oT n0 oS n1) s1 hm v (x := oX) (y := oY)
  refine ⟨fun k hk i hi => ?_, fun q hq => ?_⟩
  · rcases Nat.lt_succ_iff_lt_or_eq.mp hi with hi | rfl
    · rw [r1, ih0 k hk i hi]
      intro k' hk'
      interval_cases k <;> interval_cases k' <;> omega
    · rw [r0 k hk, ih1]
      · congr 1
        refine Finset.sum_congr rfl fun b hb' => Finset.sum_congr rfl fun j hj => ?_
        have hb3 := Finset.mem_range.mp hb'
        have hjn := Finset.mem_range.mp hj
        have := hk3 hb3 hjn
        rw [hlow _ (by omega)]
        congr 1
        refine hl _ _ _ _ (fun d hd => hlow _ ?_) (fun d hd => hlow _ ?_) k hk b hb3
        · have := hb hd hm
          omega
        · have := hb hd hjn
          omega
      · intro k' hk' i' hi'
        interval_cases k <;> interval_cases k' <;> omega
  · rw [r1, ih1]
    · exact fun k hk i hi => hq k hk i (by omega)
    · exact fun k hk => hq k hk m (by omega)

end H2Pack.Kern
