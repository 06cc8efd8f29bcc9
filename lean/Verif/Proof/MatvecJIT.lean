import Verif.Model.MatvecJIT
import Verif.Proof.Matvec3

/-! # Lemmas for the JIT matvec -/

set_option linter.unusedSectionVars false

namespace H2Pack.MV
open H2Pack.Part (Arr kids ClusterTree)
open Finset (range sum_congr mul_sum sum_mul sum_comm sum_add_distrib sum_range_succ mem_range)

section
variable {K : Type} [CommRing K] {ι : Type} [DecidableEq ι]

theorem extend_ge {simd n : Nat} (h : 0 < simd) : n ≤ extend simd n := by
  unfold extend
  have h1 := Nat.div_add_mod (n + simd - 1) simd
  have h2 := Nat.mod_lt (n + simd - 1) h
  have h3 : (n + simd - 1) / simd * simd = simd * ((n + simd - 1) / simd) := Nat.mul_comm _ _
  omega

theorem extend_dvd (simd n : Nat) : simd ∣ extend simd n := Dvd.intro_left _ rfl

theorem extend_lt {simd n : Nat} (h : 0 < simd) : extend simd n < n + simd := by
  unfold extend
  have h1 := Nat.div_mul_le_self (n + simd - 1) simd
  omega

/-! ## Row copies -/

theorem idx_lt {i j m n : Nat} (hi : i < m) (hj : j < n) : i * n + j < m * n := by
  calc i * n + j < i * n + n := by omega
    _ = (i + 1) * n := by ring
    _ ≤ m * n := Nat.mul_le_mul_right _ hi

theorem copyRows (dst n next m : Nat) (hn : n ≤ next) (src : Nat → Nat → K) (w : Nat → K) :
    (∀ i < m, ∀ j < next, (List.range m).foldl (fun w i => copyPad (dst + i * next) n next (src i) w) w (dst + (i * next + j)) =
      if j < n then src i j else 0) ∧
    ∀ k, k < dst ∨ dst + m * next ≤ k → (List.range m).foldl (fun w i => copyPad (dst + i * next) n next (src i) w) w k = w k := by
  induction m with
  | zero => exact ⟨fun i hi => by omega, fun k _ => rfl⟩
  | succ m ih =>
    simp only [List.range_succ, List.foldl_append, List.foldl_cons, List.foldl_nil]
    have e1 : (m + 1) * next = m * next + next := by ring
    refine ⟨fun i hi j hj => ?_, fun k hk => ?_⟩
    · by_cases e : i = m
      · subst e
        unfold copyPad
        by_cases hjn : j < n
        · rw [if_pos (by omega), if_pos hjn]; congr 1; omega
        · rw [if_neg (by omega), if_pos (by omega), if_neg hjn]
      · have := idx_lt (show i < m by omega) hj
        rw [← ih.1 i (by omega) j hj]
        unfold copyPad
        rw [if_neg (by omega), if_neg (by omega)]
    · rw [← ih.2 k (by omega)]
      unfold copyPad
      rw [if_neg (by omega), if_neg (by omega)]

theorem copyRows2 (pad : K) (dT n0 n0e dS n1 n1e m : Nat) (h0 : n0 ≤ n0e) (h1 : n1 ≤ n1e) (hd : dT + m * n0e ≤ dS) (s0 s1 : Nat → Nat → K)
    (w : Nat → K) :
    (∀ i < m, ∀ j < n0, (List.range m).foldl (fun w i =>
      copyPadV pad (dS + i * n1e) n1 n1e (s1 i) (copyPadV pad (dT + i * n0e) n0 n0e (s0 i) w)) w (dT + (i * n0e + j)) = s0 i j) ∧
    (∀ i < m, ∀ j < n1, (List.range m).foldl (fun w i =>
      copyPadV pad (dS + i * n1e) n1 n1e (s1 i) (copyPadV pad (dT + i * n0e) n0 n0e (s0 i) w)) w (dS + (i * n1e + j)) = s1 i j) := by
  have key : ∀ q, q ≤ m →
    (∀ i < q, ∀ j < n0, (List.range q).foldl (fun w i =>
      copyPadV pad (dS + i * n1e) n1 n1e (s1 i) (copyPadV pad (dT + i * n0e) n0 n0e (s0 i) w)) w (dT + (i * n0e + j)) = s0 i j) ∧
    (∀ i < q, ∀ j < n1, (List.range q).foldl (fun w i =>
      copyPadV pad (dS + i * n1e) n1 n1e (s1 i) (copyPadV pad (dT + i * n0e) n0 n0e (s0 i) w)) w (dS + (i * n1e + j)) = s1 i j) := by
    intro q
    induction q with
    | zero => intro _; exact ⟨fun i hi => by omega, fun i hi => by omega⟩
    | succ q ih =>
      intro hq
      obtain ⟨i1, i2⟩ := ih (by omega)
      have e0 : (q + 1) * n0e ≤ m * n0e := Nat.mul_le_mul_right _ hq
      have e0' : (q + 1) * n0e = q * n0e + n0e := by ring
      simp only [List.range_succ, List.foldl_append, List.foldl_cons, List.foldl_nil]
      refine ⟨fun i hi j hj => ?_, fun i hi j hj => ?_⟩
      · by_cases e : i = q
        · subst e
          unfold copyPadV
          rw [if_neg (by omega), if_neg (by omega), if_pos (by omega)]
          congr 1; omega
        · have hlt := idx_lt (show i < q by omega) (show j < n0e by omega)
          rw [← i1 i (by omega) j hj]
          unfold copyPadV
          rw [if_neg (by omega), if_neg (by omega), if_neg (by omega), if_neg (by omega)]
      · by_cases e : i = q
        · subst e
          unfold copyPadV
          rw [if_pos (by omega)]
          congr 1; omega
        · have hlt := idx_lt (show i < q by omega) (show j < n1e by omega)
          rw [← i2 i (by omega) j hj]
          unfold copyPadV
          rw [if_neg (by omega), if_neg (by omega), if_neg (by omega), if_neg (by omega)]
  exact key m (le_refl _)

theorem copyPad_V (dst n next : Nat) (src : Nat → K) (w : Nat → K) : copyPad dst n next src w = copyPadV 0 dst n next src w := rfl

theorem fillZero_in {dst n k : Nat} (w : Nat → K) (h : dst ≤ k ∧ k < dst + n) : fillZero dst n w k = 0 := by unfold fillZero; rw [if_pos h]
theorem fillZero_out {dst n k : Nat} (w : Nat → K) (h : ¬ (dst ≤ k ∧ k < dst + n)) : fillZero dst n w k = w k := by unfold fillZero; rw [if_neg h]

/-- The padded work buffer. -/
theorem extBuf_spec (simd xdim kd : Nat) (hs : 0 < simd) (c0 : Nat → K) (ld0 n0 : Nat) (c1 : Nat → K) (ld1 n1 : Nat)
    (x0 x1 : Nat → K) (ldi0 ldi1 : Nat) (w : Nat → K) :
    let n0e := extend simd n0
    let n1e := extend simd n1
    let oS := 0 + xdim * n0e
    let oX0 := oS + xdim * n1e
    let oX1 := oX0 + n1e * kd
    let oY0 := oX1 + n0e * kd
    let oY1 := oY0 + n0e * kd
    let W := extBuf simd xdim kd c0 ld0 n0 c1 ld1 n1 x0 x1 ldi0 ldi1 w
    (∀ i < n0, point xdim (fun k => W (0 + k)) n0e i = point xdim c0 ld0 i) ∧
    (∀ j < n1, point xdim (fun k => W (oS + k)) n1e j = point xdim c1 ld1 j) ∧
    (∀ b < kd, ∀ j < n1e, W (oX0 + (b * n1e + j)) = if j < n1 then x0 (b * ldi0 + j) else 0) ∧
    (∀ a < kd, ∀ i < n0e, W (oX1 + (a * n0e + i)) = if i < n0 then x1 (a * ldi1 + i) else 0) ∧
    (∀ a < kd, ∀ i < n0e, W (oY0 + (a * n0e + i)) = 0) ∧
    (∀ b < kd, ∀ j < n1e, W (oY1 + (b * n1e + j)) = 0) := by
  intro n0e n1e oS oX0 oX1 oY0 oY1 W
  have g0 : n0 ≤ n0e := extend_ge hs
  have g1 : n1 ≤ n1e := extend_ge hs
  -- stages
  let w1 := (List.range xdim).foldl (fun w i => copyPad (oS + i * n1e) n1 n1e (fun k => c1 (i * ld1 + k))
      (copyPad (0 + i * n0e) n0 n0e (fun k => c0 (i * ld0 + k)) w)) w
  let w2 := (List.range kd).foldl (fun w i => copyPad (oX0 + i * n1e) n1 n1e (fun k => x0 (i * ldi0 + k)) w) w1
  let w3 := fillZero oY0 (n0e * kd) w2
  let w4 := (List.range kd).foldl (fun w i => copyPad (oX1 + i * n0e) n0 n0e (fun k => x1 (i * ldi1 + k)) w) w3
  have hW : W = fillZero oY1 (n1e * kd) w4 := rfl
  have c1e : kd * n1e = n1e * kd := Nat.mul_comm _ _
  have c0e : kd * n0e = n0e * kd := Nat.mul_comm _ _
  have q2 := copyRows oX0 n1 n1e kd g1 (fun i k => x0 (i * ldi0 + k)) w1
  have q4 := copyRows oX1 n0 n0e kd g0 (fun i k => x1 (i * ldi1 + k)) w3
  have q1 := copyRows2 (0 : K) 0 n0 n0e oS n1 n1e xdim g0 g1 (by omega) (fun i k => c0 (i * ld0 + k)) (fun i k => c1 (i * ld1 + k)) w
  -- below oX0 nothing changes after the first stage
  have low : ∀ k, k < oX0 → W k = w1 k := by
    intro k hk
    rw [hW, fillZero_out _ (by omega)]
    exact (q4.2 k (by omega)).trans ((fillZero_out _ (by omega)).trans (q2.2 k (by omega)))
  refine ⟨fun i hi => ?_, fun j hj => ?_, fun b hb j hj => ?_, fun a ha i hi => ?_, fun a ha i hi => ?_, fun b hb j hj => ?_⟩
  · funext d
    unfold point
    split
    · next hd =>
      have := idx_lt hd (show i < n0e by omega)
      dsimp only
      rw [low _ (by omega)]
      exact q1.1 d hd i hi
    · rfl
  · funext d
    unfold point
    split
    · next hd =>
      have := idx_lt hd (show j < n1e by omega)
      dsimp only
      rw [low _ (by omega)]
      exact q1.2 d hd j hj
    · rfl
  · have := idx_lt hb hj
    rw [hW, fillZero_out _ (by omega)]
    exact (q4.2 _ (by omega)).trans ((fillZero_out _ (by omega)).trans (q2.1 b hb j hj))
  · have := idx_lt ha hi
    rw [hW, fillZero_out _ (by omega)]
    exact q4.1 a ha i hi
  · have := idx_lt ha hi
    rw [hW, fillZero_out _ (by omega)]
    exact (q4.2 _ (by omega)).trans (fillZero_in _ (by omega))
  · have := idx_lt hb hj
    rw [hW, fillZero_in _ (by omega)]

/-- What a kernel bi-matvec on points `p0`, `p1` adds. -/
def kernD (kern : (Nat → K) → (Nat → K) → Nat → Nat → K) (kd n0 n1 : Nat) (p0 p1 : Nat → Nat → K) (x0 x1 : Nat → K) (a0 a1 : Nat → ι)
    (ldi0 ldi1 ldo0 ldo1 : Nat) (l : ι) : K :=
  (∑ a ∈ range kd, ∑ i ∈ range n0, if l = a0 (a * ldo0 + i) then
    ∑ b ∈ range kd, ∑ j ∈ range n1, kern (p0 i) (p1 j) a b * x0 (b * ldi0 + j) else 0) +
  ∑ b ∈ range kd, ∑ j ∈ range n1, if l = a1 (b * ldo1 + j) then
    ∑ a ∈ range kd, ∑ i ∈ range n0, kern (p0 i) (p1 j) a b * x1 (a * ldi1 + i) else 0

theorem foldl2_adds (m n : Nat) (A : Nat → Nat → ι) (v : Nat → Nat → K) (mem : ι → K) (l : ι) :
    (List.range m).foldl (fun mem i => (List.range n).foldl (fun mem j => addAt mem (A i j) (v i j)) mem) mem l =
    mem l + ∑ i ∈ range m, ∑ j ∈ range n, if l = A i j then v i j else 0 := by
  rw [foldl_range_adds m _ (fun i l => ∑ j ∈ range n, if l = A i j then v i j else 0)]
  intro i _ mem l
  rw [foldl_range_adds n _ (fun j l => if l = A i j then v i j else 0)]
  intro j _ mem l
  exact addAt_apply _ _ _ _

theorem sum_pad {n next : Nat} (h : n ≤ next) (f g : Nat → K) :
    ∑ j ∈ range next, f j * (if j < n then g j else 0) = ∑ j ∈ range n, f j * g j := by
  rw [← sum_split n next h]
  have : ∑ t ∈ range (next - n), f (n + t) * (if n + t < n then g (n + t) else 0) = 0 := by
    apply Finset.sum_eq_zero; intro t _; rw [if_neg (by omega), mul_zero]
  rw [this, add_zero]
  apply sum_congr rfl
  intro j hj
  rw [if_pos (mem_range.1 hj)]

theorem extBimv_adds {simd xdim kd : Nat} (hs : 0 < simd) {kern : (Nat → K) → (Nat → K) → Nat → Nat → K} {f : Bimv K}
    (hf : BimvSpec simd xdim kd kern f) (c0 : Nat → K) (ld0 n0 : Nat) (c1 : Nat → K) (ld1 n1 : Nat)
    (x0 x1 : Nat → K) (a0 a1 : Nat → ι) (ldi0 ldi1 ldo0 ldo1 : Nat) (w : Nat → K) (mem : ι → K) (l : ι) :
    extBimv simd xdim kd f c0 ld0 n0 c1 ld1 n1 x0 x1 a0 a1 ldi0 ldi1 ldo0 ldo1 w mem l =
      mem l + kernD kern kd n0 n1 (point xdim c0 ld0) (point xdim c1 ld1) x0 x1 a0 a1 ldi0 ldi1 ldo0 ldo1 l := by
  have E := extBuf_spec simd xdim kd hs c0 ld0 n0 c1 ld1 n1 x0 x1 ldi0 ldi1 w
  have g0 : n0 ≤ extend simd n0 := extend_ge hs
  have g1 : n1 ≤ extend simd n1 := extend_ge hs
  dsimp only at E
  obtain ⟨e1, e2, e3, e4, e5, e6⟩ := E
  unfold extBimv
  have hk := hf (extend simd n0) (extend simd n1) 0 (0 + xdim * extend simd n0) (0 + xdim * extend simd n0 + xdim * extend simd n1)
    (0 + xdim * extend simd n0 + xdim * extend simd n1 + extend simd n1 * kd)
    (0 + xdim * extend simd n0 + xdim * extend simd n1 + extend simd n1 * kd + extend simd n0 * kd)
    (0 + xdim * extend simd n0 + xdim * extend simd n1 + extend simd n1 * kd + extend simd n0 * kd + extend simd n0 * kd)
    (extBuf simd xdim kd c0 ld0 n0 c1 ld1 n1 x0 x1 ldi0 ldi1 w) (extend_dvd _ _) (extend_dvd _ _) (le_refl _) (le_refl _) (le_refl _) (le_refl _) (le_refl _)
  rw [foldl2_adds, foldl2_adds, add_assoc]
  congr 1
  unfold kernD
  congr 1
  · apply sum_congr rfl; intro a ha
    apply sum_congr rfl; intro i hi
    rw [mem_range] at ha hi
    split
    · rw [Nat.add_assoc _ (a * extend simd n0) i, hk.1 a ha i (by omega), e5 a ha i (by omega), zero_add]
      apply sum_congr rfl; intro b hb
      rw [mem_range] at hb
      rw [← sum_pad g1]
      apply sum_congr rfl; intro j hj
      rw [mem_range] at hj
      rw [e3 b hb j hj]
      by_cases hj1 : j < n1
      · rw [e1 i hi, e2 j hj1]
      · rw [if_neg hj1, mul_zero, mul_zero]
    · rfl
  · apply sum_congr rfl; intro b hb
    apply sum_congr rfl; intro j hj
    rw [mem_range] at hb hj
    split
    · rw [Nat.add_assoc _ (b * extend simd n1) j, hk.2 b hb j (by omega), e6 b hb j (by omega), zero_add]
      apply sum_congr rfl; intro a ha
      rw [mem_range] at ha
      rw [← sum_pad g0]
      apply sum_congr rfl; intro i hi
      rw [mem_range] at hi
      rw [e4 a ha i hi]
      by_cases hi1 : i < n0
      · rw [e1 i hi1, e2 j hj]
      · rw [if_neg hi1, mul_zero, mul_zero]
    · rfl

theorem extMv_adds {simd xdim kd : Nat} (hs : 0 < simd) (pad : K) {kern : (Nat → K) → (Nat → K) → Nat → Nat → K} {f : KMv K}
    (hf : MvSpec simd xdim kd kern f) (c0 : Nat → K) (ld0 n0 : Nat) (c1 : Nat → K) (ld1 n1 : Nat)
    (x : Nat → K) (ldi : Nat) (A : Nat → ι) (ldo : Nat) (w : Nat → K) (mem : ι → K) (l : ι) :
    extMv simd xdim kd pad f c0 ld0 n0 c1 ld1 n1 x ldi A ldo w mem l =
      mem l + ∑ a ∈ range kd, ∑ i ∈ range n0, if l = A (a * ldo + i) then
        ∑ b ∈ range kd, ∑ j ∈ range n1, kern (point xdim c0 ld0 i) (point xdim c1 ld1 j) a b * x (b * ldi + j) else 0 := by
  have g0 : n0 ≤ extend simd n0 := extend_ge hs
  have g1 : n1 ≤ extend simd n1 := extend_ge hs
  unfold extMv
  have hk := hf (extend simd n0) (extend simd n1) 0 (0 + xdim * extend simd n0) (0 + xdim * extend simd n0 + xdim * extend simd n1)
    (0 + xdim * extend simd n0 + xdim * extend simd n1 + extend simd n1 * kd)
    (extBufMv simd xdim kd pad c0 ld0 n0 c1 ld1 n1 x ldi w) (extend_dvd _ _) (extend_dvd _ _) (le_refl _) (le_refl _) (le_refl _)
  generalize hn0 : extend simd n0 = n0e at *
  generalize hn1 : extend simd n1 = n1e at *
  have c1e : kd * n1e = n1e * kd := Nat.mul_comm _ _
  have c0e : kd * n0e = n0e * kd := Nat.mul_comm _ _
  let w1 := (List.range xdim).foldl (fun w i => copyPadV pad (0 + xdim * n0e + i * n1e) n1 n1e (fun k => c1 (i * ld1 + k))
      (copyPadV pad (0 + i * n0e) n0 n0e (fun k => c0 (i * ld0 + k)) w)) w
  have q1 := copyRows2 pad 0 n0 n0e (0 + xdim * n0e) n1 n1e xdim g0 g1 (by omega) (fun i k => c0 (i * ld0 + k)) (fun i k => c1 (i * ld1 + k)) w
  have q2 := copyRows (0 + xdim * n0e + xdim * n1e) n1 n1e kd g1 (fun i k => x (i * ldi + k)) w1
  have hW : extBufMv simd xdim kd pad c0 ld0 n0 c1 ld1 n1 x ldi w = fillZero (0 + xdim * n0e + xdim * n1e + n1e * kd) (n0e * kd)
      ((List.range kd).foldl (fun w i => copyPad (0 + xdim * n0e + xdim * n1e + i * n1e) n1 n1e (fun k => x (i * ldi + k)) w) w1) := by
    unfold extBufMv; dsimp only; rw [hn0, hn1]
  generalize extBufMv simd xdim kd pad c0 ld0 n0 c1 ld1 n1 x ldi w = W at *
  have low : ∀ k, k < 0 + xdim * n0e + xdim * n1e → W k = w1 k := by
    intro k hk
    rw [hW, fillZero_out _ (by omega)]
    exact q2.2 k (by omega)
  rw [foldl2_adds]
  congr 1
  apply sum_congr rfl; intro a ha
  apply sum_congr rfl; intro i hi
  rw [mem_range] at ha hi
  split
  · have hai := idx_lt ha (show i < n0e by omega)
    rw [Nat.add_assoc _ (a * n0e) i, hk a ha i (by omega)]
    have hz : W (0 + xdim * n0e + xdim * n1e + n1e * kd + (a * n0e + i)) = 0 := by
      rw [hW]; exact fillZero_in _ (by omega)
    rw [hz, zero_add]
    apply sum_congr rfl; intro b hb
    rw [mem_range] at hb
    rw [← sum_pad g1]
    apply sum_congr rfl; intro j hj
    rw [mem_range] at hj
    have hbj := idx_lt hb hj
    have hx : W (0 + xdim * n0e + xdim * n1e + (b * n1e + j)) = if j < n1 then x (b * ldi + j) else 0 := by
      rw [hW, fillZero_out _ (by omega)]; exact q2.1 b hb j hj
    rw [hx]
    by_cases hj1 : j < n1
    · have p0 : point xdim (fun k => W (0 + k)) n0e i = point xdim c0 ld0 i := by
        funext d
        unfold point
        split
        · next hd =>
          have := idx_lt hd (show i < n0e by omega)
          dsimp only; rw [low _ (by omega)]; exact q1.1 d hd i hi
        · rfl
      have p1 : point xdim (fun k => W (0 + xdim * n0e + k)) n1e j = point xdim c1 ld1 j := by
        funext d
        unfold point
        split
        · next hd =>
          have := idx_lt hd (show j < n1e by omega)
          dsimp only; rw [low _ (by omega)]; exact q1.2 d hd j hj1
        · rfl
      rw [p0, p1]
    · rw [if_neg hj1, mul_zero, mul_zero]
  · rfl

end
end H2Pack.MV
