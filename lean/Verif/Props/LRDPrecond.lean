import Verif.Proof.LRDPrecond
import Verif.Props.BlockJacobi
import Verif.Props.Utils
import Verif.Props.ProxyPoint

/-! # C95: the low rank plus diagonal preconditioner -/

namespace H2Pack.LRD
open H2Pack.MV H2Pack.Part H2Pack.BJ H2Pack.Utils H2Pack.AFN Finset Matrix

section spec

/-- The kernel matrix of the points `s` (row `i * kdim + a` is component `a` of point number `i` of the list). -/
noncomputable def skelBlock (kern : (Nat → ℝ) → (Nat → ℝ) → Nat → Nat → ℝ) (pts : Nat → Nat → ℝ) (kdim : Nat) (s : List Nat) :
    Matrix (Fin (s.length * kdim)) (Fin (s.length * kdim)) ℝ := fun p q =>
  kern (pts (s.getD (p / kdim) 0)) (pts (s.getD (q / kdim) 0)) (p % kdim) (q % kdim)

/-- The row of the kernel matrix of point number `p / kdim` of the list, component `c` of point `j`. -/
noncomputable def skelRow (kern : (Nat → ℝ) → (Nat → ℝ) → Nat → Nat → ℝ) (pts : Nat → Nat → ℝ) (kdim : Nat) (s : List Nat) (p j c : Nat) : ℝ :=
  kern (pts (s.getD (p / kdim) 0)) (pts j) (p % kdim) c

/-- The low rank approximation with the middle matrix `Q`, plus the shift; component `a` of point `i`, component `c` of point `j`. -/
noncomputable def lowRank (kern : (Nat → ℝ) → (Nat → ℝ) → Nat → Nat → ℝ) (pts : Nat → Nat → ℝ) (kdim : Nat) (s : List Nat) (shift : ℝ)
    (Q : Matrix (Fin (s.length * kdim)) (Fin (s.length * kdim)) ℝ) (i a j c : Nat) : ℝ :=
  (∑ p : Fin (s.length * kdim), ∑ q : Fin (s.length * kdim), skelRow kern pts kdim s p i a * Q p q * skelRow kern pts kdim s q j c) + if i = j ∧ a = c then shift else 0

end spec

variable {d n : Nat} (hn : 0 < n) {coord : Nat → Nat → ℝ} {mlp : Int} {mls : ℝ}
  {rb : Option (H2Pack.Utils.Box ℝ)} {rnd : Nat → ℝ} {junk : Arr ℝ} {g : Nat → Nat → Nat} {fuel : Nat} {P : Partitioned ℝ}
  (h : partitionPoints d d n coord mlp mls rb rnd junk g fuel = .ok P) {J : JIT ℝ} (H : Loaded J P n d)

include hn h H

/-- **C95** For every symmetric kernel, partitioned handle, positive shift and random numbers for which the sampling ends: the sample consists of `rank` different
points.  If their kernel matrix has a positive eigenvalue, the preconditioner is built, and applying it solves the system with the shifted low rank
approximation, in the original order of the points and for any contents of the buffers and of the output, for any order of the threads and any contents of
the fresh matrices, if there is one thread or the kernel is scalar.  The approximation uses the kernel matrix of
the sample inverted on the eigenvalues not below `1e-10` times the greatest one. -/
theorem C95_low_rank {lp : H2Pack.ULV.Lapack ℝ} (hL : lp.Correct) (hD : lp.Definite) {lq : H2Pack.SPD.Lapack2} (hQ : lq.Correct)
    (hk : ∀ x y a b, J.kern x y a b = J.kern y x b a) {shift : ℝ} (hs : 0 < shift) {rank : Nat} {r : Nat → Nat} {s0 : List Nat} {t : Nat}
    {E : Env} (ht : 1 ≤ E.nThread) (hkt : J.R.kdim = 1 ∨ E.nThread = 1) (ho1 : E.ordS.Perm (List.range E.nThread)) (ho2 : E.ordC.Perm (List.range E.nThread))
    (hr : Returns (fun fuel => randSample r n rank fuel) (s0, t)) :
    ∃ s : List Nat, s.length = rank ∧ s.Nodup ∧ (∀ x ∈ s, x < n) ∧
      ((∃ w : ℝ, 0 < w ∧ ∃ y, y ≠ 0 ∧ skelBlock J.kern (orig d coord) J.R.kdim s *ᵥ y = w • y) →
      ∃ (L : Precond) (top : ℝ) (Q : Matrix (Fin (s.length * J.R.kdim)) (Fin (s.length * J.R.kdim)) ℝ), Returns (build lp lq J E rank shift r) (some L) ∧
        IsGreatest {w : ℝ | ∃ y, y ≠ 0 ∧ skelBlock J.kern (orig d coord) J.R.kdim s *ᵥ y = w • y} top ∧ Q.PosSemidef ∧
        FunOf (fun w => if 1 / 10000000000 * top ≤ w then 1 / w else 0) (skelBlock J.kern (orig d coord) J.R.kdim s) Q ∧
        ∀ (gp : (Nat → Nat) × (Nat → Nat)) (pb px x b : Nat → ℝ), ∀ i < n, ∀ a < J.R.kdim,
          ∑ j ∈ range n, ∑ c ∈ range J.R.kdim, lowRank J.kern (orig d coord) J.R.kdim s shift Q i a j c * apply J.R L gp pb px x b (j * J.R.kdim + c) =
            b (i * J.R.kdim + a)) := by
  classical
  have O := outcome hn le_rfl h
  obtain ⟨F, hF⟩ := hr
  obtain ⟨s1, s2, s3⟩ := C38_rand_sample r n rank F s0 t (hF F (le_refl _))
  have hkd := H.kdim
  have hR := ready hn le_rfl h H
  refine ⟨s0.map P.coordIdx, by rw [List.length_map, s1], ?_, ?_, ?_⟩
  · refine (List.nodup_map_iff_inj_on s2).2 fun x hx y hy e => perm_inj O.perm (s3 x hx) (s3 y hy) e
  · intro x hx
    obtain ⟨y, hy, rfl⟩ := List.mem_map.1 hx
    exact perm_lt O.perm (s3 y hy)
  intro hpos
  have hlen : (s0.map P.coordIdx).length = rank := by rw [List.length_map, s1]
  set s := s0.map P.coordIdx with hsd
  clear_value s
  subst hlen
  set m := s.length * J.R.kdim with hm
  set N := n * J.R.kdim with hN
  have hget : ∀ i < s.length, s.getD i 0 = P.coordIdx (s0.getD i 0) ∧ s0.getD i 0 < n := by
    intro i hi
    have hi0 : i < s0.length := by rw [s1]; exact hi
    rw [List.getD_eq_getElem s 0 hi, List.getD_eq_getElem s0 0 hi0]
    refine ⟨?_, s3 _ (List.getElem_mem _)⟩
    simp only [hsd, List.getElem_map]
  have hdiv : ∀ p < m, p / J.R.kdim < s.length := fun p hp => (Nat.div_lt_iff_lt_mul hkd).2 hp
  have hps : ∀ p < m, point J.xdim J.coord J.R.nPoint (s0.getD (p / J.R.kdim) 0) = orig d coord (s.getD (p / J.R.kdim) 0) := by
    intro p hp
    obtain ⟨e1, e2⟩ := hget _ (hdiv p hp)
    rw [e1, point_orig hn le_rfl h H e2]
  set S : Nat → Nat → ℝ := H2Pack.Proxy.evalOMP J.kern J.R.kdim (fun i => point J.xdim J.coord J.R.nPoint (s0.getD i 0)) s.length
    (fun i => point J.xdim J.coord J.R.nPoint (s0.getD i 0)) s.length E.nThread E.ordS E.junkS with hSd
  set C : Nat → Nat → ℝ := H2Pack.Proxy.evalOMP J.kern J.R.kdim (fun i => point J.xdim J.coord J.R.nPoint (s0.getD i 0)) s.length
    (fun i => point J.xdim J.coord J.R.nPoint i) J.R.nPoint E.nThread E.ordC E.junkC with hCd
  have hSe : ∀ p < m, ∀ q < m, S p q = kmat J.kern J.R.kdim (fun i => point J.xdim J.coord J.R.nPoint (s0.getD i 0)) (fun i => point J.xdim J.coord J.R.nPoint (s0.getD i 0)) p q :=
    fun p hp q hq => H2Pack.Proxy.evalOMP_spec _ _ hkd _ _ _ _ _ ht hkt _ ho1 _ p hp q hq
  have hCe : ∀ p < m, ∀ q < N, C p q = kmat J.kern J.R.kdim (fun i => point J.xdim J.coord J.R.nPoint (s0.getD i 0)) (fun i => point J.xdim J.coord J.R.nPoint i) p q :=
    fun p hp q hq => H2Pack.Proxy.evalOMP_spec _ _ hkd _ _ _ _ _ ht hkt _ ho2 _ p hp q (by rw [H.npt]; exact hq)
  have hS : H2Pack.ULV.mf m m S = skelBlock J.kern (orig d coord) J.R.kdim s := by
    ext p q
    show S p q = J.kern _ _ _ _
    rw [hSe p p.2 q q.2]
    show J.kern _ _ _ _ = J.kern _ _ _ _
    dsimp only
    rw [hps p p.2, hps q q.2]
  have hC : ∀ p < m, ∀ q < n, ∀ c < J.R.kdim, C p (q * J.R.kdim + c) = skelRow J.kern (orig d coord) J.R.kdim s p (P.coordIdx q) c := by
    intro p hp q hq c hc
    rw [hCe p hp _ (row_lt hq hc)]
    show J.kern _ _ _ _ = J.kern _ _ _ _
    dsimp only
    rw [hps p hp, (div_mod_row hc).1, (div_mod_row hc).2, point_orig hn le_rfl h H hq]
  obtain ⟨U, top, Q, hfac, htop, htop0, hfun, hQp, hmat⟩ := factor_spec (N := N) hL hD hQ hs (S := S) (C := C) (m := m)
    (fun i hi j hj => by rw [hSe i hi j hj, hSe j hj i hi]; exact hk _ _ _ _) (by rw [hS]; exact hpos)
  rw [hS] at htop hfun
  refine ⟨⟨N, m, shift, U⟩, top, Q, ⟨F, fun fuel hfuel => ?_⟩, htop, hQp, hfun, ?_⟩
  · unfold build
    have e : randSample r J.R.nPoint s.length fuel = .ok (s0, t) := by rw [H.npt]; exact hF fuel hfuel
    rw [e]
    show Res.ok ((factor lp lq m (J.R.nPoint * J.R.kdim) shift S C).map _) = _
    rw [H.npt, hfac]
    rfl
  intro gp pb px x b i hi a ha
  have Cp := C26_permutations J.R hR.perm gp
  rw [H.npt, H.idx] at Cp
  obtain ⟨p, hp, rfl⟩ := perm_surj O.perm hi
  set Bv := permuteFwd J.R gp b pb with hBv
  have hin : Bv (p * J.R.kdim + a) = b (P.coordIdx p * J.R.kdim + a) := (Cp b pb pb).1 p hp a ha
  have hval : ∀ q < n, ∀ c < J.R.kdim, apply J.R ⟨N, m, shift, U⟩ gp pb px x b (P.coordIdx q * J.R.kdim + c) =
      (Bv (q * J.R.kdim + c) + -1 * ∑ i ∈ range m, U i (q * J.R.kdim + c) * ∑ c' ∈ range N, U i c' * Bv c') * (1 / shift) := by
    intro q hq c hc
    unfold apply
    dsimp only
    rw [(Cp _ x x).2.1 q hq c hc, if_pos (row_lt hq hc)]
  have hsum : ∀ f : Nat → ℝ, ∑ j ∈ range n, f j = ∑ q ∈ range n, f (P.coordIdx q) := by
    intro f
    symm
    refine sum_bij (fun q _ => P.coordIdx q) (fun q hq => by rw [mem_range] at *; exact perm_lt O.perm hq) ?_ ?_ (fun _ _ => rfl)
    · intro q hq q' hq' e
      rw [mem_range] at hq hq'
      exact perm_inj O.perm hq hq' e
    · intro j hj
      obtain ⟨q, hq, e⟩ := perm_surj O.perm (mem_range.1 hj)
      exact ⟨q, mem_range.2 hq, e⟩
  rw [hsum]
  -- the vector equation in the sorted order
  have hvec := congrFun (congrArg (fun M => M *ᵥ fun c : Fin N => Bv c) hmat) ⟨p * J.R.kdim + a, row_lt hp ha⟩
  rw [← Matrix.mulVec_mulVec, Matrix.smul_mulVec, Matrix.one_mulVec, Pi.smul_apply, smul_eq_mul] at hvec
  have hinner : ∀ k : Fin N, ((1 - (H2Pack.ULV.mf m N U)ᵀ * H2Pack.ULV.mf m N U) *ᵥ fun c : Fin N => Bv c) k =
      Bv k + -1 * ∑ i ∈ range m, U i k * ∑ c' ∈ range N, U i c' * Bv c' := by
    intro k
    rw [Matrix.sub_mulVec, Matrix.one_mulVec, ← Matrix.mulVec_mulVec, Pi.sub_apply, Matrix.mulVec, dotProduct, sum_range, sub_eq_add_neg, neg_one_mul]
    congr 2
    refine sum_congr rfl fun i _ => ?_
    rw [Matrix.transpose_apply, Matrix.mulVec, dotProduct, sum_range]
    rfl
  have hrow : ∀ (q : Nat) (hq : q < n) (c : Nat) (hc : c < J.R.kdim), ((H2Pack.ULV.mf m N C)ᵀ * Q * H2Pack.ULV.mf m N C + shift • (1 : Matrix (Fin N) (Fin N) ℝ))
      ⟨p * J.R.kdim + a, row_lt hp ha⟩ ⟨q * J.R.kdim + c, row_lt hq hc⟩ = lowRank J.kern (orig d coord) J.R.kdim s shift Q (P.coordIdx p) a (P.coordIdx q) c := by
    intro q hq c hc
    unfold lowRank
    rw [Matrix.add_apply, Matrix.smul_apply, Matrix.one_apply, smul_eq_mul, Matrix.mul_apply]
    congr 1
    · simp only [Matrix.mul_apply, sum_mul]
      rw [sum_comm]
      refine sum_congr rfl fun p' _ => sum_congr rfl fun q' _ => ?_
      rw [Matrix.transpose_apply]
      show C p' _ * _ * C q' _ = _
      rw [hC p' p'.2 p hp a ha, hC q' q'.2 q hq c hc]
    · have hiff : (⟨p * J.R.kdim + a, row_lt hp ha⟩ : Fin N) = ⟨q * J.R.kdim + c, row_lt hq hc⟩ ↔ (P.coordIdx p = P.coordIdx q ∧ a = c) := by
        rw [Fin.mk.injEq]
        constructor
        · intro e
          have e1 := congrArg (· / J.R.kdim) e
          have e2 := congrArg (· % J.R.kdim) e
          simp only [(div_mod_row ha).1, (div_mod_row hc).1] at e1
          simp only [(div_mod_row ha).2, (div_mod_row hc).2] at e2
          rw [e1, e2]; exact ⟨rfl, rfl⟩
        · rintro ⟨e1, e2⟩
          rw [perm_inj O.perm hp hq e1, e2]
      simp only [hiff]
      split <;> simp
  rw [Matrix.mulVec, dotProduct] at hvec
  have hflat : ∀ f : Fin N → ℝ, ∑ k, f k = ∑ q ∈ range n, ∑ c ∈ range J.R.kdim, if hh : q * J.R.kdim + c < N then f ⟨q * J.R.kdim + c, hh⟩ else 0 := by
    intro f
    have := sum_range (n := N) (fun k => if hh : k < N then f ⟨k, hh⟩ else 0)
    rw [← sum_rows n J.R.kdim (fun k => if hh : k < N then f ⟨k, hh⟩ else 0), ← hN, this]
    exact sum_congr rfl fun k _ => by rw [dif_pos k.2]
  rw [hflat] at hvec
  rw [← hin]
  have hfin : ∑ q ∈ range n, ∑ c ∈ range J.R.kdim, lowRank J.kern (orig d coord) J.R.kdim s shift Q (P.coordIdx p) a (P.coordIdx q) c *
      apply J.R ⟨N, m, shift, U⟩ gp pb px x b (P.coordIdx q * J.R.kdim + c) = (shift * Bv (p * J.R.kdim + a)) * (1 / shift) := by
    rw [← hvec, sum_mul]
    refine sum_congr rfl fun q hq => ?_
    rw [sum_mul]
    refine sum_congr rfl fun c hc => ?_
    rw [mem_range] at hq hc
    rw [dif_pos (row_lt hq hc), hval q hq c hc, hrow q hq c hc, hinner]
    ring
  rw [hfin]
  field_simp

omit hn h in
/-- **C95** (limit).  A rank greater than the number of points: the sampling never ends. -/
theorem C95_too_many (hn : 0 < n) (lp : H2Pack.ULV.Lapack ℝ) (lq : H2Pack.SPD.Lapack2) (E : Env) (shift : ℝ) (r : Nat → Nat) {rank : Nat} (hr : n < rank) :
    Diverges (build lp lq J E rank shift r) := by
  intro fuel
  unfold build
  have : randSample r J.R.nPoint rank fuel = .diverge := by rw [H.npt]; exact C38_too_many_diverges r n rank hn hr fuel
  rw [this]
  rfl

omit h H hn in
/-- **C95** (limit).  Several threads and a kernel with several components: the last rows of both kernel matrices are never stored, so the preconditioner is made
from what the memory contained before. -/
theorem C95_rows_missing (lp : H2Pack.ULV.Lapack ℝ) (lq : H2Pack.SPD.Lapack2) {E : Env} (ht : 2 ≤ E.nThread) (hkd : 2 ≤ J.R.kdim)
    (ho1 : E.ordS.Perm (List.range E.nThread)) (ho2 : E.ordC.Perm (List.range E.nThread)) (shift : ℝ) {rank : Nat} (hrank : 2 ≤ rank) {r : Nat → Nat} {s0 : List Nat × Nat}
    (hr : Returns (fun fuel => randSample r J.R.nPoint rank fuel) s0) :
    ∃ S C : Nat → Nat → ℝ, (∀ c, S (rank * J.R.kdim - 1) c = E.junkS (rank * J.R.kdim - 1) c) ∧ (∀ c, C (rank * J.R.kdim - 1) c = E.junkC (rank * J.R.kdim - 1) c) ∧
      Returns (build lp lq J E rank shift r) ((factor lp lq (rank * J.R.kdim) (J.R.nPoint * J.R.kdim) shift S C).map
        fun U => ⟨J.R.nPoint * J.R.kdim, rank * J.R.kdim, shift, U⟩) := by
  obtain ⟨F, hF⟩ := hr
  refine ⟨_, _, fun c => H2Pack.Proxy.C74_rows_missing J.kern J.R.kdim hkd (fun i => point J.xdim J.coord J.R.nPoint (s0.1.getD i 0)) rank hrank (fun i => point J.xdim J.coord J.R.nPoint (s0.1.getD i 0)) rank E.nThread ht E.ordS ho1 E.junkS c,
    fun c => H2Pack.Proxy.C74_rows_missing J.kern J.R.kdim hkd (fun i => point J.xdim J.coord J.R.nPoint (s0.1.getD i 0)) rank hrank (fun i => point J.xdim J.coord J.R.nPoint i) J.R.nPoint E.nThread ht E.ordC ho2 E.junkC c, F, fun fuel hf => ?_⟩
  unfold build
  rw [show randSample r J.R.nPoint rank fuel = .ok s0 from hF fuel hf]
  rfl

/-- A vector kernel, two threads and a sample of two of the six points: a case of `C95_rows_missing`. -/
example : ∃ (J : JIT ℝ) (E : Env) (s0 : List Nat × Nat), 2 ≤ E.nThread ∧ 2 ≤ J.R.kdim ∧ E.ordS.Perm (List.range E.nThread) ∧ E.ordC.Perm (List.range E.nThread) ∧
    Returns (fun fuel => randSample (fun t => [5, 2].getD t 0) J.R.nPoint 2 fuel) s0 := by
  refine ⟨⟨⟨⟨0, 0, 0, 0, fun _ => 0, fun _ => 0, fun _ => 0, fun _ => 0, fun _ => 0, fun _ => 0, fun _ => 0, fun _ => ⟨fun _ => 0, fun _ => 0⟩, fun _ => 0, fun _ => 0, fun _ => 0, fun _ => 0⟩,
    6, 2, id, fun _ => ⟨0, 0, fun _ _ => 0⟩, [], [], fun _ => ⟨0, 0, fun _ _ => 0⟩, fun _ => ⟨0, 0, fun _ _ => 0⟩, 0, fun _ => 0⟩,
    4, 1, fun x y a b => x 0 * y 0 + if a = b then 1 else 0, none, fun p => p, fun _ => 0, fun _ _ => 0, fun _ _ => 0, fun _ _ => 0⟩,
    ⟨2, [1, 0], [0, 1], fun _ _ => 7, fun _ _ => 7⟩, ([5, 2], 2), by decide, le_refl 2, by decide, by decide, 1, fun fuel hf => ?_⟩
  obtain ⟨f, rfl⟩ : ∃ f, fuel = f + 1 := ⟨fuel - 1, by omega⟩
  simp [randSample, sampleLoop, drawLoop, Function.update_apply]

/-! ## Non-vacuity -/

/-- Six points on a line, a sample of two, the kernel `2 + (1 if the points are equal)`, shift 3, three threads. -/
example : ∃ (lp : H2Pack.ULV.Lapack ℝ) (lq : H2Pack.SPD.Lapack2) (P : Partitioned ℝ) (J : JIT ℝ) (L : Precond) (s : List Nat), s.length = 2 ∧ Loaded J P 6 1 ∧
    Returns (build lp lq J ⟨3, [2, 0, 1], [1, 0, 2], fun _ _ => 7, fun _ _ => 7⟩ 2 3 fun t => [5, 2].getD t 0) (some L) := by
  obtain ⟨lp, hL, hD⟩ := H2Pack.ULV.lapack_exists
  obtain ⟨lq, hQ⟩ := H2Pack.SPD.lapack2_exists
  let coord : Nat → Nat → ℝ := fun p _ => p
  obtain ⟨P, F, hF⟩ := C09_terminates 1 1 6 (by norm_num) (le_refl _) coord 1 (1/100) (by norm_num) none (fun _ => 1/3)
    ⟨0, 0, 0, 0, fun _ => 0, fun _ => 0, fun _ => 0, fun _ => 0, fun _ => 0, fun _ => 0, fun _ => 0, fun _ => ⟨fun _ => 0, fun _ => 0⟩, fun _ => 0, fun _ => 0, fun _ => 0, fun _ => 0⟩
    (fun _ _ => 7)
  have h := hF F (le_refl _)
  let J : JIT ℝ := ⟨⟨P.arr, 6, 1, P.coordIdx, fun _ => ⟨0, 0, fun _ _ => 0⟩, [], [], fun _ => ⟨0, 0, fun _ _ => 0⟩, fun _ => ⟨0, 0, fun _ _ => 0⟩, 0, fun _ => 0⟩,
    4, 1, fun x y _ _ => 2 + if x 0 = y 0 then 1 else 0, none, fun p => P.coord p 0, fun _ => 0, fun _ _ => 0, fun _ _ => 0, fun _ _ => 0⟩
  have HL : Loaded J P 6 1 := ⟨rfl, rfl, rfl, rfl, by
    intro p hp d hd
    obtain rfl : d = 0 := by omega
    show P.coord (0 * 6 + p) 0 = _
    congr 1; omega, Nat.one_pos⟩
  have hr : Returns (fun fuel => randSample (fun t => [5, 2].getD t 0) 6 2 fuel) ([5, 2], 2) := by
    refine ⟨1, fun fuel hf => ?_⟩
    obtain ⟨f, rfl⟩ : ∃ f, fuel = f + 1 := ⟨fuel - 1, by omega⟩
    simp [randSample, sampleLoop, drawLoop, Function.update_apply]
  obtain ⟨s, s1, s2, s3, H⟩ := C95_low_rank (by norm_num) h HL hL hD hQ (fun x y _ _ => by
    show (2 : ℝ) + (if x 0 = y 0 then 1 else 0) = 2 + if y 0 = x 0 then 1 else 0
    congr 1; exact if_congr eq_comm rfl rfl) (shift := 3) (by norm_num) (E := ⟨3, [2, 0, 1], [1, 0, 2], fun _ _ => 7, fun _ _ => 7⟩) (by show 1 ≤ 3; omega) (Or.inl rfl) (by decide) (by decide) hr
  obtain ⟨a, b, rfl⟩ := List.length_eq_two.1 s1
  have hab : a ≠ b := by simpa using s2
  obtain ⟨L, -, -, hB, -⟩ := H ⟨5, by norm_num, fun _ => 1, fun e => by
      have := congrFun e (⟨0, Nat.two_pos⟩ : Fin 2)
      exact one_ne_zero this, by
    funext (p : Fin 2)
    show ∑ q : Fin 2, ((2 : ℝ) + if ((([a, b].getD (p / 1) 0 : Nat)) : ℝ) = (([a, b].getD (q / 1) 0 : Nat) : ℝ) then 1 else 0) * 1 = 5 * 1
    rw [Fin.sum_univ_two]
    fin_cases p <;> norm_num [hab, hab.symm]⟩
  exact ⟨lp, lq, P, J, L, [a, b], rfl, HL, hB⟩

end H2Pack.LRD
