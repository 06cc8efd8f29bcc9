import Verif.Proof.FSAIBlock2
import Verif.Props.FSAIKnn

/-! # C99: the block FSAI preconditioner -/

namespace H2Pack.FSB
open H2Pack.ULV H2Pack.AFN Finset Matrix

/-- The kernel matrix of the sorted points plus `shift I`. -/
def target (F : In) : Matrix (Fin (F.n * F.kd)) (Fin (F.n * F.kd)) ℝ := fun r c =>
  F.kern (F.pt (r / F.kd)) (F.pt (c / F.kd)) (r % F.kd) (c % F.kd) + if r = c then F.shift else 0

/-- `G` is a block factorized sparse approximate inverse of `S` with blocks of `kd` rows on the pattern `nn`: there are no entries right of the diagonal blocks
or outside the pattern, `G S` vanishes on the pattern except on the diagonal blocks, the diagonal blocks of `G S G'` are the identity. -/
structure IsBlockFSAI {m : Nat} (kd : Nat) (nn : Nat → List Nat) (S G : Matrix (Fin m) (Fin m) ℝ) : Prop where
  pattern : ∀ r c : Fin m, (c / kd : Nat) ≠ r / kd → ¬ ((c / kd : Nat) < r / kd ∧ (c / kd : Nat) ∈ nn (r / kd)) → G r c = 0
  orth : ∀ r c : Fin m, (c / kd : Nat) < r / kd → (c / kd : Nat) ∈ nn (r / kd) → (G * S) r c = 0
  unit : ∀ r c : Fin m, (r / kd : Nat) = c / kd → (G * S * Gᵀ) r c = if r = c then 1 else 0

/-- The neighbours with smaller numbers are different, and there are fewer than `k`. -/
def Pattern (n k : Nat) (nn : Nat → List Nat) : Prop :=
  ∀ i < n, ((nn i).filter fun q => decide (q < i)).Nodup ∧ ((nn i).filter fun q => decide (q < i)).length < k

variable {F : In} {k : Nat} {nn : Nat → List Nat}

theorem target_eq (r c : Fin (F.n * F.kd)) : target F r c = sEnt F r c := by
  unfold target sEnt
  by_cases h : r = c
  · rw [if_pos h, if_pos (congrArg Fin.val h)]
  · rw [if_neg h, if_neg (fun e => h (Fin.ext e))]

theorem block_row (hL : F.lp.Correct) (hD : F.lp.Definite) (hs : Solves F.solve) (hkd : 0 < F.kd) (hS : (target F).PosDef) (hP : Pattern F.n k nn) {i : Nat} (hi : i < F.n) :
    ∃ Y, tmpY F (nbr (nn i) i) = some Y ∧
      (∀ j < F.kd, ∀ q < F.kd * ((nbr (nn i) i).length - 1), ∑ t ∈ range ((nbr (nn i) i).length * F.kd), Y j t * tmpA F (nbr (nn i) i) t q = 0) ∧
      ∀ j < F.kd, ∀ j' < F.kd, ∑ q ∈ range ((nbr (nn i) i).length * F.kd), (∑ t ∈ range ((nbr (nn i) i).length * F.kd), Y j t * tmpA F (nbr (nn i) i) t q) * Y j' q =
        if j = j' then 1 else 0 := by
  obtain ⟨h1, h2, h3, h4, h5⟩ := nbr_spec (hP i hi).1
  have hlt : ∀ j ∈ nbr (nn i) i, j < F.n := fun j hj => lt_of_le_of_lt (h2 j hj) hi
  refine tmpY_spec hL hD hs hkd (by omega) ?_
  have := posDef_sub hS target_eq (cols_lt hlt hkd) (cols_nodup h1)
  have hc : (cols F.kd (nbr (nn i) i)).length = (nbr (nn i) i).length * F.kd := cols_len
  have e := this.submatrix (e := Fin.cast hc.symm) (Fin.cast_injective hc.symm)
  convert e using 1
  ext p q
  rw [Matrix.of_apply, tmpA_eq h1 p.2 q.2]
  rfl

theorem isBlockFSAI (hkd : 0 < F.kd) (hP : Pattern F.n k nn) {Y : Nat → Nat → Nat → ℝ}
    (hY : ∀ i < F.n, (∀ j < F.kd, ∀ q < F.kd * ((nbr (nn i) i).length - 1), ∑ t ∈ range ((nbr (nn i) i).length * F.kd), Y i j t * tmpA F (nbr (nn i) i) t q = 0) ∧
      ∀ j < F.kd, ∀ j' < F.kd, ∑ q ∈ range ((nbr (nn i) i).length * F.kd), (∑ t ∈ range ((nbr (nn i) i).length * F.kd), Y i j t * tmpA F (nbr (nn i) i) t q) * Y i j' q =
        if j = j' then 1 else 0) :
    IsBlockFSAI F.kd nn (target F) (gM F.n F.kd (fun i => nbr (nn i) i) Y) := by
  have hlt : ∀ i < F.n, ∀ j ∈ nbr (nn i) i, j < F.n := fun i hi j hj => lt_of_le_of_lt ((nbr_spec (hP i hi).1).2.1 j hj) hi
  have hGS : ∀ (r : Fin (F.n * F.kd)) (q : Nat) (hq : q < (nbr (nn (r / F.kd)) (r / F.kd)).length * F.kd) (c : Fin (F.n * F.kd)),
      (cols F.kd (nbr (nn (r / F.kd)) (r / F.kd))).getD q 0 = c →
      (gM F.n F.kd (fun i => nbr (nn i) i) Y * target F) r c =
        ∑ t ∈ range ((nbr (nn (r / F.kd)) (r / F.kd)).length * F.kd), Y (r / F.kd) (r % F.kd) t * tmpA F (nbr (nn (r / F.kd)) (r / F.kd)) t q := by
    intro r q hq c hc
    have hi := div_lt r.2
    obtain ⟨h1, -⟩ := nbr_spec (hP _ hi).1
    have e := row_sum (n := F.n) (kd := F.kd) (N := fun i => nbr (nn i) i) (Y := Y) hkd hlt r.2 (fun x => sEnt F x c)
    rw [sum_range] at e
    rw [Matrix.mul_apply]
    refine (sum_congr rfl fun x _ => ?_).trans (e.trans (sum_congr rfl fun t ht => ?_))
    · rw [target_eq]; rfl
    · rw [tmpA_eq h1 (mem_range.1 ht) hq, hc]
  refine ⟨fun r c hne hn => ?_, fun r c h1 h2 => ?_, fun r c h => ?_⟩
  · refine gEnt_zero hkd fun hm => ?_
    have hi := div_lt r.2
    rcases ((nbr_spec (hP _ hi).1).2.2.2.1 _).1 hm with h | h
    · exact hn h
    · exact hne h
  · have hi := div_lt r.2
    obtain ⟨n1, -, -, -, n5⟩ := nbr_spec (hP _ hi).1
    obtain ⟨t, ht, e⟩ := n5 _ h1 h2
    have hm := Nat.mod_lt (c : Nat) hkd
    have hq : F.kd * t + c % F.kd < F.kd * ((nbr (nn (r / F.kd)) (r / F.kd)).length - 1) := by
      calc F.kd * t + c % F.kd < F.kd * t + F.kd := by omega
        _ = F.kd * (t + 1) := by ring
        _ ≤ _ := Nat.mul_le_mul_left _ ht
    have hq' : F.kd * t + c % F.kd < (nbr (nn (r / F.kd)) (r / F.kd)).length * F.kd := by
      refine lt_of_lt_of_le hq ?_
      rw [Nat.mul_comm]
      exact Nat.mul_le_mul_right _ (Nat.sub_le _ _)
    have hc : (cols F.kd (nbr (nn (r / F.kd)) (r / F.kd))).getD (F.kd * t + c % F.kd) 0 = c := by
      rw [cols_get hq', (block_div hm).1, (block_div hm).2, e, Nat.div_add_mod]
    rw [hGS r _ hq' c hc]
    exact (hY _ hi).1 _ (Nat.mod_lt _ hkd) _ hq
  · have hi := div_lt r.2
    have hi' := div_lt c.2
    have e := row_sum (n := F.n) (kd := F.kd) (N := fun i => nbr (nn i) i) (Y := Y) hkd hlt c.2
      (fun x => if hx : x < F.n * F.kd then (gM F.n F.kd (fun i => nbr (nn i) i) Y * target F) r ⟨x, hx⟩ else 0)
    rw [sum_range] at e
    rw [Matrix.mul_apply]
    have e2 := (hY _ hi).2 (r % F.kd) (Nat.mod_lt _ hkd) (c % F.kd) (Nat.mod_lt _ hkd)
    have e3 : (if (r % F.kd : Nat) = c % F.kd then (1 : ℝ) else 0) = if r = c then 1 else 0 := by
      have e1 := Nat.div_add_mod (r : Nat) F.kd
      have e2 := Nat.div_add_mod (c : Nat) F.kd
      by_cases hrc : r = c
      · rw [if_pos hrc, if_pos (by rw [hrc])]
      · rw [if_neg hrc, if_neg]
        intro hm
        rw [h, hm] at e1
        exact hrc (Fin.ext (e1.symm.trans e2))
    rw [← e3, ← e2]
    refine (sum_congr rfl fun x _ => ?_).trans (e.trans ?_)
    · rw [dif_pos x.2, mul_comm, Matrix.transpose_apply]; rfl
    · rw [← h]
      refine sum_congr rfl fun q hq => ?_
      have hq := mem_range.1 hq
      have hcl : (cols F.kd (nbr (nn (r / F.kd)) (r / F.kd))).getD q 0 < F.n * F.kd := by
        refine cols_lt (hlt _ hi) hkd _ ?_
        rw [List.getD_eq_getElem _ _ (by rw [cols_len]; exact hq)]
        exact List.getElem_mem _
      rw [dif_pos hcl, hGS r q hq ⟨_, hcl⟩ rfl, mul_comm]

/-- **C99**.  With enough room, the build ends with a preconditioner; there is a block factorized sparse approximate inverse `G` of the kernel matrix plus
`shift I` such that every application computes `P' (G' G) P b` for the permutations of the handle, and changes nothing after the result. -/
theorem C99_block_fsai (hL : F.lp.Correct) (hD : F.lp.Definite) (hs : Solves F.solve) (hkd : 0 < F.kd) (hS : (target F).PosDef) (hP : Pattern F.n k nn)
    {nThread : Nat} (ht : 1 ≤ nThread) (ht' : nThread ≤ F.n * F.kd) (ev : Env) (h1 : ev.ordG.Perm (List.range (F.n * F.kd))) (h2 : ev.ordGT.Perm (List.range (F.n * F.kd)))
    (h3 : ev.ordC.Perm (List.range nThread)) :
    ∃ Q G, Returns (build F k nThread nn ev) (some Q) ∧ IsBlockFSAI F.kd nn (target F) G ∧
      ∀ (fwd bwd : Nat → Nat) (hb : ∀ r < F.n * F.kd, bwd r < F.n * F.kd) (merge : List (List (Nat × ℝ)) → List (Nat × ℝ)), (∀ l, (merge l).Perm l.flatten) →
        ∀ fr0 lr0 y0 y1 b x : Nat → ℝ, ∃ x', apply (F.n * F.kd) Q fwd bwd merge fr0 lr0 y0 y1 b x = .ok x' ∧
          (∀ r (hr : r < F.n * F.kd), x' r = ((Gᵀ * G) *ᵥ fun c => b (fwd c)) ⟨bwd r, hb r hr⟩) ∧ ∀ r, F.n * F.kd ≤ r → x' r = x r := by
  have hN1 : ∀ i < F.n, (nbr (nn i) i).Nodup ∧ (∀ j ∈ nbr (nn i) i, j < F.n) ∧ 1 ≤ (nbr (nn i) i).length ∧ (nbr (nn i) i).length ≤ k := by
    intro i hi
    obtain ⟨a1, a2, a3, -⟩ := nbr_spec (hP i hi).1
    have := (hP i hi).2
    exact ⟨a1, fun j hj => lt_of_le_of_lt (a2 j hj) hi, by omega, by omega⟩
  have hlt : ∀ i < F.n, ∀ j ∈ nbr (nn i) i, j < F.n := fun i hi => (hN1 i hi).2.1
  generalize hYd : (fun i => (tmpY F (nbr (nn i) i)).getD fun _ _ => 0) = Y
  have hYs : ∀ i < F.n, tmpY F (nbr (nn i) i) = some (Y i) ∧
      (∀ j < F.kd, ∀ q < F.kd * ((nbr (nn i) i).length - 1), ∑ t ∈ range ((nbr (nn i) i).length * F.kd), Y i j t * tmpA F (nbr (nn i) i) t q = 0) ∧
      ∀ j < F.kd, ∀ j' < F.kd, ∑ q ∈ range ((nbr (nn i) i).length * F.kd), (∑ t ∈ range ((nbr (nn i) i).length * F.kd), Y i j t * tmpA F (nbr (nn i) i) t q) * Y i j' q =
        if j = j' then 1 else 0 := by
    intro i hi
    obtain ⟨Z, z1, z2⟩ := block_row hL hD hs hkd hS hP hi
    have : Y i = Z := by
      rw [← hYd]
      show (tmpY F (nbr (nn i) i)).getD (fun _ _ => 0) = Z
      rw [z1]; rfl
    rw [this]
    exact ⟨z1, z2⟩
  have hF := isBlockFSAI hkd hP fun i hi => (hYs i hi).2
  generalize hE : entries F.n F.kd (fun i => nbr (nn i) i) Y = E
  have hget : ∀ t < E.length, (E.getD t (0, 0, 0)).1 < F.n * F.kd ∧ (E.getD t (0, 0, 0)).2.1 < F.n * F.kd := by
    intro t ht
    refine triples_mem (n := F.n) (N := fun i => nbr (nn i) i) (Y := Y) hkd hlt ?_
    rw [hE, List.getD_eq_getElem _ _ ht]
    exact List.getElem_mem _
  have hlen : nThread ≤ E.length := by
    rw [← hE]
    exact le_trans ht' (triples_len hkd fun i hi => (hN1 i hi).2.2.1)
  obtain ⟨g, gp, ⟨F1, hF1⟩, ⟨F2, hF2⟩, hg⟩ := CSRP.C96_parallel_spmv (cooG (F.n * F.kd) E) (fun t ht => (hget t ht).1) nThread ht hlen ev.col0 ev.val0 ev.d0 ev.ordG h1
  obtain ⟨gt, gtp, ⟨F3, hF3⟩, ⟨F4, hF4⟩, hgt⟩ := CSRP.C96_parallel_spmv (cooGT (F.n * F.kd) E) (fun t ht => (hget t ht).2) nThread ht hlen ev.col0 ev.val0 ev.d0 ev.ordGT h2
  have hroom : ¬ F.kd * F.kd * k * F.n < ((List.range F.n).map fun i => (nbr (nn i) i).length * F.kd * F.kd).sum := by
    have := List.sum_le_card_nsmul ((List.range F.n).map fun i => (nbr (nn i) i).length * F.kd * F.kd) (k * F.kd * F.kd) (by
      intro x hx
      obtain ⟨i, hi, rfl⟩ := List.mem_map.1 hx
      exact Nat.mul_le_mul_right _ (Nat.mul_le_mul_right _ (hN1 i (List.mem_range.1 hi)).2.2.2))
    rw [List.length_map, List.length_range, smul_eq_mul] at this
    have e : F.n * (k * F.kd * F.kd) = F.kd * F.kd * k * F.n := by ring
    omega
  refine ⟨⟨nThread, CSRP.optimize (F.n * F.kd) g gp ev.ordC ev.junk, gp, CSRP.optimize (F.n * F.kd) gt gtp ev.ordC ev.junk, gtp⟩,
    gM F.n F.kd (fun i => nbr (nn i) i) Y, ⟨F1 + F2 + F3 + F4, fun fuel hf => ?_⟩, hF, fun fwd bwd hb merge hm fr0 lr0 y0 y1 b x => ?_⟩
  · have e1 := hF1 fuel (by omega)
    have e2 := hF2 fuel (by omega)
    have e3 := hF3 fuel (by omega)
    have e4 := hF4 fuel (by omega)
    unfold build
    dsimp only
    rw [if_neg hroom, if_pos (fun i hi => by rw [(hYs i hi).1]; rfl), hYd, hE, e1]
    simp only [Res.bind_ok]
    rw [e3]
    simp only [Res.bind_ok]
    rw [show CSRP.partition (F.n * F.kd) g.rp nThread ev.d0 fuel = _ from e2]
    simp only [Res.bind_ok]
    rw [show CSRP.partition (F.n * F.kd) gt.rp nThread ev.d0 fuel = _ from e4]
    rfl
  · obtain ⟨x0, a1, a2, -⟩ := hg _ (Or.inr ⟨ev.ordC, ev.junk, h3, rfl⟩) (fun r => b (fwd r)) fr0 lr0 y0 merge hm
    obtain ⟨px, c1, c2, -⟩ := hgt _ (Or.inr ⟨ev.ordC, ev.junk, h3, rfl⟩) x0 fr0 lr0 y1 merge hm
    have b1 : ∀ i < F.n * F.kd, x0 i = ∑ c ∈ range (F.n * F.kd), gEnt F.kd (fun i => nbr (nn i) i) Y i c * b (fwd c) := by
      intro i hi
      rw [a2 i hi, ← triples_fwd hkd hlt hi (fun c => b (fwd c)), hE, ← sum_getD E (0, 0, 0)]
      refine sum_congr rfl fun t _ => ?_
      simp [cooG]
    have b2 : ∀ i < F.n * F.kd, px i = ∑ r ∈ range (F.n * F.kd), gEnt F.kd (fun i => nbr (nn i) i) Y r i * x0 r := by
      intro i hi
      rw [c2 i hi, ← triples_bwd (n := F.n) (kd := F.kd) (N := fun i => nbr (nn i) i) (Y := Y) x0, hE, ← sum_getD E (0, 0, 0)]
      refine sum_congr rfl fun t _ => ?_
      simp [cooGT]
    refine ⟨fun r => if r < F.n * F.kd then px (bwd r) else x r, ?_, fun r hr => ?_, fun r hr => ?_⟩
    · unfold apply
      have a1' : CSRP.spmv (F.n * F.kd) nThread (CSRP.optimize (F.n * F.kd) g gp ev.ordC ev.junk) gp (fun r => b (fwd r)) merge fr0 lr0 y0 = _ := a1
      have c1' : CSRP.spmv (F.n * F.kd) nThread (CSRP.optimize (F.n * F.kd) gt gtp ev.ordC ev.junk) gtp x0 merge fr0 lr0 y1 = _ := c1
      dsimp only
      rw [a1', Res.bind_ok, c1', Res.bind_ok]
    · dsimp only
      rw [if_pos hr, b2 _ (hb r hr), ← Matrix.mulVec_mulVec, Matrix.mulVec, dotProduct, sum_range]
      refine sum_congr rfl fun t _ => ?_
      rw [Matrix.transpose_apply, b1 t t.2, Matrix.mulVec, dotProduct, sum_range]
      rfl
    · dsimp only
      rw [if_neg (by omega)]

theorem sum_block {m : Nat} {p : Fin m → Prop} [DecidablePred p] {f : Fin m → ℝ} (h : ∀ t, ¬ p t → f t = 0) : ∑ t, f t = ∑ t : {t : Fin m // p t}, f t.1 := by
  rw [← Finset.sum_subtype (univ.filter p) (by simp) f]
  exact (Finset.sum_subset (Finset.filter_subset _ _) fun t _ ht => h t fun hp => ht (by simp [hp])).symm

/-- C99 (positive definite): the application is symmetric positive definite for any factor `G` with these properties, so the preconditioner can be used with conjugate
gradients. -/
theorem C99_spd {m kd : Nat} {nn : Nat → List Nat} {S G : Matrix (Fin m) (Fin m) ℝ} (h : IsBlockFSAI kd nn S G) : (Gᵀ * G).PosDef := by
  have key : ∀ x : Fin m → ℝ, G *ᵥ x = 0 → ∀ b, ∀ c : Fin m, (c / kd : Nat) = b → x c = 0 := by
    intro x hx b
    induction b using Nat.strong_induction_on with
    | _ b ih =>
      generalize hg : (Matrix.of fun r c : {t : Fin m // (t / kd : Nat) = b} => G r.1 c.1) = g
      generalize ha : (Matrix.of fun r c : {t : Fin m // (t / kd : Nat) = b} => (G * S) r.1 c.1) = a
      have h1 : a * gᵀ = 1 := by
        ext r c
        have e := h.unit r.1 c.1 (r.2.trans c.2.symm)
        rw [Matrix.mul_apply, sum_block (p := fun t : Fin m => (t / kd : Nat) = b)] at e
        · rw [Matrix.mul_apply, Matrix.one_apply, if_congr Subtype.ext_iff rfl rfl, ← e, ← ha, ← hg]
          rfl
        · intro t ht
          rw [Matrix.transpose_apply]
          by_cases hp : (t / kd : Nat) < c.1 / kd ∧ (t / kd : Nat) ∈ nn (c.1 / kd)
          · have hrc : (c.1 / kd : Nat) = r.1 / kd := c.2.trans r.2.symm
            rw [h.orth r.1 t (hrc ▸ hp.1) (hrc ▸ hp.2), zero_mul]
          · rw [h.pattern c.1 t (fun e => ht (e.trans c.2)) hp, mul_zero]
      have h2 : aᵀ * g = 1 := by
        have := congrArg Matrix.transpose (mul_eq_one_comm.1 h1)
        rwa [Matrix.transpose_mul, Matrix.transpose_transpose, Matrix.transpose_one] at this
      have h3 : g *ᵥ (fun t => x t.1) = 0 := by
        funext r
        have e := congrFun hx r.1
        rw [Matrix.mulVec, dotProduct, sum_block (p := fun t : Fin m => (t / kd : Nat) = b)] at e
        · rw [← hg]; exact e
        · intro t ht
          by_cases hp : (t / kd : Nat) < r.1 / kd ∧ (t / kd : Nat) ∈ nn (r.1 / kd)
          · rw [ih _ (by rw [r.2] at hp; exact hp.1) t rfl, mul_zero]
          · rw [h.pattern r.1 t (fun e => ht (e.trans r.2)) hp, zero_mul]
      have h4 : (fun t : {t : Fin m // (t / kd : Nat) = b} => x t.1) = 0 := by
        rw [← Matrix.one_mulVec (fun t : {t : Fin m // (t / kd : Nat) = b} => x t.1), ← h2, ← Matrix.mulVec_mulVec, h3, Matrix.mulVec_zero]
      exact fun c hc => congrFun h4 ⟨c, hc⟩
  have := Matrix.PosDef.conjTranspose_mul_self G (by
    refine (injective_iff_map_eq_zero (G.mulVecLin : (Fin m → ℝ) →ₗ[ℝ] (Fin m → ℝ))).2 fun x hx => funext fun c => key x hx _ c rfl)
  rwa [Matrix.conjTranspose_eq_transpose_of_trivial] at this

/-- C99 (full pattern): if the pattern contains all smaller points, the preconditioner is the inverse of the matrix. -/
theorem C99_exact {m kd : Nat} {nn : Nat → List Nat} {S G : Matrix (Fin m) (Fin m) ℝ} (h : IsBlockFSAI kd nn S G) (hS : Sᵀ = S)
    (hf : ∀ r : Fin m, ∀ j < (r / kd : Nat), j ∈ nn (r / kd)) : Gᵀ * G * S = 1 := by
  have low : ∀ r c : Fin m, (c / kd : Nat) < r / kd → (G * S * Gᵀ) r c = 0 := by
    intro r c hrc
    rw [Matrix.mul_apply]
    refine sum_eq_zero fun t _ => ?_
    rw [Matrix.transpose_apply]
    by_cases ht : (t / kd : Nat) ≤ c / kd
    · rw [h.orth r t (by omega) (hf r _ (by omega)), zero_mul]
    · rw [h.pattern c t (by omega) (by omega), mul_zero]
  have sym : (G * S * Gᵀ)ᵀ = G * S * Gᵀ := by
    rw [Matrix.transpose_mul, Matrix.transpose_mul, Matrix.transpose_transpose, hS, Matrix.mul_assoc]
  have one : G * S * Gᵀ = 1 := by
    ext r c
    rw [Matrix.one_apply]
    rcases Nat.lt_trichotomy (c / kd : Nat) (r / kd) with hc | hc | hc
    · rw [low r c hc, if_neg (fun e => by rw [e] at hc; omega)]
    · exact h.unit r c hc.symm
    · rw [← sym, Matrix.transpose_apply, low c r hc, if_neg (fun e => by rw [e] at hc; omega)]
  rw [Matrix.mul_assoc]
  exact mul_eq_one_comm.1 one

section Field
variable {K : Type} [Field K] [LinearOrder K] [IsStrictOrderedRing K]

/-- C99 (the pattern): the search with the tree gives a pattern as the construction needs it, if the point itself is near its leaf and every other near point is at
a positive distance of it. -/
theorem C99_pattern {D : Nat → Nat → K} {cs : List Nat} {p : Nat} {L : List Nat} (hk : 0 < k) (hn : cs.Nodup) (h : FKnn.IsKnn D cs k p L) (hp : p ∈ cs) (h0 : D p p = 0)
    (hpos : ∀ q ∈ cs, q ≠ p → 0 < D p q) : (L.filter fun q => decide (q < p)).Nodup ∧ (L.filter fun q => decide (q < p)).length < k := by
  have hlen : ∀ M : List Nat, p ∈ M → (M.filter fun q => decide (q < p)).length < M.length := by
    intro M hM
    rw [List.length_filter_lt_length_iff_exists]
    exact ⟨p, hM, by simp⟩
  by_cases hc : k < cs.length
  · obtain ⟨h1, h2, h3, h4⟩ := h.1 hc
    have hpL : p ∈ L := by
      by_contra hn
      cases L with
      | nil => simp at h1; omega
      | cons q L =>
        have a := h4 q List.mem_cons_self p hp hn
        have b := hpos q (h3 q List.mem_cons_self) (fun e => hn (by rw [e]; exact List.mem_cons_self))
        rw [h0] at a
        exact absurd a (not_le.2 b)
    exact ⟨h2.filter _, by have := hlen L hpL; omega⟩
  · have e := h.2 (by omega)
    have e2 : (L.filter fun q => decide (q < p)) = cs.filter fun q => decide (q < p) := by
      rw [e, List.filter_append]
      refine (congrArg _ ?_).trans (List.append_nil _)
      rw [List.filter_eq_nil_iff]
      intro a ha
      rw [List.eq_of_mem_replicate ha]
      simp
    rw [e2]
    exact ⟨hn.filter _, by have := hlen cs hp; omega⟩


theorem self_inadmissible (A : H2Pack.Utils.Box K) : ∀ (m i : Nat), (∀ j, i ≤ j → j < i + m → 0 < A.ext j) → H2Pack.Utils.admLoop A A H2Pack.Part.alphaH2 i m = false
  | 0, i, _ => rfl
  | m + 1, i, h => by
    have h0 := h i (le_refl _) (by omega)
    have e : H2Pack.Utils.dimAdmissible A A H2Pack.Part.alphaH2 i = false := by
      unfold H2Pack.Utils.dimAdmissible H2Pack.Part.alphaH2
      simp only [decide_eq_false_iff_not, sub_self, abs_zero, if_neg (lt_irrefl _), ge_iff_le, not_le]
      nlinarith
    unfold H2Pack.Utils.admLoop
    rw [e, if_neg (by simp)]
    exact self_inadmissible A m (i + 1) fun j h1 h2 => h j (by omega) (by omega)

/-- C99 (the pattern of the tree): for every partitioned point set without two points that coincide in the first two coordinates, if the boxes of the leaves have
positive widths and the points near each leaf fit into the buffers, the search ends with a pattern as the construction needs it. -/
theorem C99_tree {ptDim xptDim n : Nat} (hn : 0 < n) (hx : ptDim ≤ xptDim) (hd : 2 ≤ ptDim) {coord : Nat → Nat → K} {mlp : Int} {mls : K}
    {rb : Option (H2Pack.Utils.Box K)} {rnd : Nat → K} {junk : H2Pack.Part.Arr K} {g : Nat → Nat → Nat} {fuel : Nat} {P : H2Pack.Part.Partitioned K}
    (h : H2Pack.Part.partitionPoints ptDim xptDim n coord mlp mls rb rnd junk g fuel = .ok P) (a b : Nat) (hk : 0 < k)
    (hfit : ∀ v < P.arr.nNode, P.arr.nChild v = 0 → FKnn.Fits P.arr ptDim n a b v)
    (hpos : ∀ v < P.arr.nNode, P.arr.nChild v = 0 → ∀ j < ptDim, 0 < (P.arr.enbox v).ext j)
    (hne : ∀ p < n, ∀ q < n, p ≠ q → coord p 0 ≠ coord q 0 ∨ coord p 1 ≠ coord q 1) :
    ∃ nn, Returns (FKnn.knn P.arr ptDim P.coord a b k) nn ∧ Pattern n k nn := by
  obtain ⟨nn, h1, h2⟩ := FKnn.C98_knn hn hx h a b k hfit
  obtain ⟨T, hl, ht⟩ := FKnn.leaf_tiles hn hx h
  have O := H2Pack.BJ.outcome hn hx h
  refine ⟨nn, h1, fun p hp => ?_⟩
  obtain ⟨x, hxm, x1, x2⟩ := H2Pack.Part.ClusterTree.tiles_cover _ _ _ ht p (Nat.zero_le _) hp
  obtain ⟨v, hv, rfl⟩ := List.mem_map.1 hxm
  obtain ⟨v1, v2⟩ := List.mem_filter.1 hv
  have v1 := List.mem_range.1 v1
  have v2 : P.arr.nChild v = 0 := by simpa using v2
  refine C99_pattern hk ?_ (h2 v v1 v2 p x1 x2) ?_ ?_ ?_
  · exact List.nodup_range.filter _
  · refine List.mem_filter.2 ⟨List.mem_range.2 hp, ?_⟩
    rw [@decide_eq_true_eq _ (Classical.propDecidable _)]
    exact ⟨v, v1, v2, x1, x2, self_inadmissible _ _ _ fun j _ hj => hpos v v1 v2 j (by omega)⟩
  · unfold FKnn.usedDist
    split <;> ring
  · intro q hq hqp
    have hq := List.mem_range.1 (List.mem_filter.1 hq).1
    rw [FKnn.C98_distance hn hx h p q hp hq (by omega)]
    have := hne _ (H2Pack.MV.perm_lt O.perm hp) _ (H2Pack.MV.perm_lt O.perm hq) fun e => hqp (H2Pack.MV.perm_inj O.perm hp hq e).symm
    unfold FKnn.usedDist
    rcases this with e | e
    · have := pow_pos (abs_pos.2 (sub_ne_zero.2 e)) 2
      rw [sq_abs] at this
      split <;> nlinarith [sq_nonneg (coord (P.coordIdx p) 1 - coord (P.coordIdx q) 1)]
    · have := pow_pos (abs_pos.2 (sub_ne_zero.2 e)) 2
      rw [sq_abs] at this
      split <;> nlinarith [sq_nonneg (coord (P.coordIdx p) 0 - coord (P.coordIdx q) 0)]

end Field

section Example

/-- A case: three points, two rows and columns per point, a full matrix. -/
noncomputable def exIn (lp : Lapack ℝ) : In where
  lp := lp
  solve := fun d A _ B q j => if hq : q < d then ∑ p : Fin d, (Matrix.of fun p q : Fin d => A p q)⁻¹ ⟨q, hq⟩ p * B p j else 0
  kern := fun x y a b => (if x 0 = y 0 ∧ a = b then 1 else 0) + 1
  xdim := 1
  n := 3
  kd := 2
  coord := fun p _ => p
  shift := 1

theorem exIn_solves (lp : Lapack ℝ) : Solves (exIn lp).solve := by
  intro d A m B hdet p hp j _
  have hM := Matrix.mul_nonsing_inv (Matrix.of fun p q : Fin d => A p q) (isUnit_iff_ne_zero.2 hdet)
  have e : ∀ q : Fin d, (exIn lp).solve d A m B q j = ((Matrix.of fun p q : Fin d => A p q)⁻¹ *ᵥ fun p => B p j) q := by
    intro q
    show (if hq : (q : Nat) < d then ∑ p : Fin d, (Matrix.of fun p q : Fin d => A p q)⁻¹ ⟨q, hq⟩ p * B p j else 0) = _
    rw [dif_pos q.2]; rfl
  have e2 : ((Matrix.of fun p q : Fin d => A p q) *ᵥ ((Matrix.of fun p q : Fin d => A p q)⁻¹ *ᵥ fun p => B p j)) ⟨p, hp⟩ = B p j := by
    rw [Matrix.mulVec_mulVec, hM, Matrix.one_mulVec]
  rw [sum_range, ← e2]
  conv_rhs => rw [Matrix.mulVec, dotProduct]
  exact sum_congr rfl fun q _ => by rw [e q]; rfl

theorem exIn_target (lp : Lapack ℝ) :
    target (exIn lp) = (2 : ℝ) • (1 : Matrix (Fin ((exIn lp).n * (exIn lp).kd)) (Fin ((exIn lp).n * (exIn lp).kd)) ℝ) + Matrix.vecMulVec (fun _ => 1) (star fun _ => 1) := by
  ext r c
  have hp : ∀ p : Nat, (exIn lp).pt p 0 = (p : ℝ) := fun p => if_pos (Nat.one_pos : 0 < (exIn lp).xdim)
  have h : ((exIn lp).pt (r / 2) 0 = (exIn lp).pt (c / 2) 0 ∧ (r % 2 : Nat) = c % 2) ↔ r = c := by
    rw [hp, hp, Nat.cast_inj, Fin.ext_iff]
    omega
  have e : (exIn lp).kern ((exIn lp).pt (r / 2)) ((exIn lp).pt (c / 2)) (r % 2) (c % 2) = (if r = c then 1 else 0) + 1 :=
    congrArg (· + 1) (if_congr h rfl rfl)
  have e2 : target (exIn lp) r c = (if r = c then 1 else 0) + 1 + if r = c then 1 else 0 :=
    congrArg (· + if r = c then (1 : ℝ) else 0) e
  rw [e2, Matrix.add_apply, Matrix.smul_apply, Matrix.one_apply, Matrix.vecMulVec_apply]
  by_cases hrc : r = c
  · simp [hrc]; norm_num
  · simp [hrc]

theorem exIn_posDef (lp : Lapack ℝ) : (target (exIn lp)).PosDef := by
  rw [exIn_target]
  exact (Matrix.PosDef.one.smul (by norm_num)).add_posSemidef (Matrix.posSemidef_vecMulVec_self_star _)

/-- The hypotheses of `C99_block_fsai` hold for it with the pattern of all smaller points and two threads. -/
example : ∃ lp : Lapack ℝ, lp.Correct ∧ lp.Definite ∧ Solves (exIn lp).solve ∧ 0 < (exIn lp).kd ∧ (target (exIn lp)).PosDef ∧
    Pattern (exIn lp).n 3 (fun _ => [1, 0, 2]) ∧ 2 ≤ (exIn lp).n * (exIn lp).kd ∧ ∀ r c, target (exIn lp) r c ≠ 0 := by
  obtain ⟨lp, hL, hD⟩ := H2Pack.ULV.lapack_exists
  refine ⟨lp, hL, hD, exIn_solves lp, by show 0 < 2; omega, exIn_posDef lp, ?_, by show 2 ≤ 3 * 2; omega, ?_⟩
  · show ∀ i < 3, _
    decide
  · intro r c
    rw [exIn_target, Matrix.add_apply, Matrix.smul_apply, Matrix.one_apply, Matrix.vecMulVec_apply]
    by_cases hrc : r = c
    · rw [if_pos hrc]; simp; norm_num
    · rw [if_neg hrc]; simp

/-- On the full pattern the example is inverted. -/
example : ∃ (lp : Lapack ℝ) (G : Matrix (Fin ((exIn lp).n * (exIn lp).kd)) (Fin ((exIn lp).n * (exIn lp).kd)) ℝ),
    IsBlockFSAI (exIn lp).kd (fun _ => [1, 0, 2]) (target (exIn lp)) G ∧ (Gᵀ * G).PosDef ∧ Gᵀ * G * target (exIn lp) = 1 := by
  obtain ⟨lp, hL, hD⟩ := H2Pack.ULV.lapack_exists
  obtain ⟨Q, G, -, hG, -⟩ := C99_block_fsai (F := exIn lp) (k := 3) (nn := fun _ => [1, 0, 2]) (nThread := 2) hL hD (exIn_solves lp) (by show 0 < 2; omega) (exIn_posDef lp)
    (by show ∀ i < 3, _; decide) (by omega) (by show 2 ≤ 3 * 2; omega)
    ⟨fun _ => 7, fun _ => 7, fun _ => 7, List.range (3 * 2), List.range (3 * 2), List.range 2, ⟨fun _ => 0, fun _ => 0, fun _ => 0⟩⟩ (List.Perm.refl _) (List.Perm.refl _) (List.Perm.refl _)
  refine ⟨lp, G, hG, C99_spd hG, C99_exact hG ?_ fun r j hj => ?_⟩
  · have := (exIn_posDef lp).isHermitian.eq
    rwa [Matrix.conjTranspose_eq_transpose_of_trivial] at this
  · have h2 : (r / 2 : Nat) < 3 := by
      have : (r : Nat) < 3 * 2 := r.2
      omega
    have hj : j < (r / 2 : Nat) := hj
    have : j = 0 ∨ j = 1 := by omega
    rcases this with rfl | rfl <;> simp

/-- A pattern of `C99_pattern`: the two points nearest to point 1. -/
example : ([1, 0].filter fun q => decide (q < 1)).Nodup ∧ ([1, 0].filter fun q => decide (q < 1)).length < 2 := by
  refine C99_pattern (D := fun p q => ((p : ℚ) - q) ^ 2) (cs := [0, 1, 3]) (p := 1) (k := 2) (by omega) (by decide) ⟨fun _ => ⟨rfl, by decide, by decide, ?_⟩, fun h => by simp at h⟩ (by decide) (by norm_num) ?_
  · intro q hq r hr hn
    fin_cases hr <;> fin_cases hq <;> simp at hn ⊢ <;> norm_num
  · intro q hq hne
    fin_cases hq <;> simp at hne ⊢ <;> norm_num

/-- Boxes of positive widths. -/
def exTree : Bool :=
  match H2Pack.Part.partitionPoints 2 2 5 H2Pack.Part.exCoord 1 (1/100) none (fun _ => 1/3) H2Pack.Part.exJunk (fun _ _ => 7) 20 with
  | .ok R => (List.range R.arr.nNode).all fun v => (List.range 2).all fun j => decide (0 < (R.arr.enbox v).ext j)
  | _ => false

set_option maxRecDepth 100000 in
theorem exTree_eq : exTree = true := by decide +kernel

theorem exCoord_ne : ∀ p < 5, ∀ q < 5, p ≠ q → H2Pack.Part.exCoord p 0 ≠ H2Pack.Part.exCoord q 0 ∨ H2Pack.Part.exCoord p 1 ≠ H2Pack.Part.exCoord q 1 := by
  decide +kernel

/-- Five points in the plane in a tree of more than one node. -/
example : ∃ P : H2Pack.Part.Partitioned ℚ, H2Pack.Part.partitionPoints 2 2 5 H2Pack.Part.exCoord 1 (1/100) none (fun _ => 1/3) H2Pack.Part.exJunk (fun _ _ => 7) 20 = .ok P ∧
    1 < P.arr.nNode ∧ ∃ nn, Returns (FKnn.knn P.arr 2 P.coord 1 9 3) nn ∧ Pattern 5 3 nn := by
  have h := FKnn.ex2_eq
  unfold FKnn.ex2 at h
  have h' := exTree_eq
  unfold exTree at h'
  cases h1 : H2Pack.Part.partitionPoints 2 2 5 H2Pack.Part.exCoord 1 (1/100) none (fun _ => 1/3) H2Pack.Part.exJunk (fun _ _ => 7) 20 with
  | ub => rw [h1] at h; simp at h
  | diverge => rw [h1] at h; simp at h
  | ok P =>
    rw [h1] at h h'
    simp only [Bool.and_eq_true, decide_eq_true_eq, List.all_eq_true, List.mem_range] at h h'
    refine ⟨P, rfl, h.1, C99_tree (by omega) (le_refl _) (le_refl _) h1 1 9 (by omega) (fun v hv h0 => ?_) (fun v hv _ j hj => h' v hv j hj) exCoord_ne⟩
    have := h.2 v hv
    exact (FKnn.fit_iff (by omega) (le_refl _) h1 1 9 v).1 ⟨this.1, this.2.resolve_right (fun hc => hc h0)⟩

end Example

end H2Pack.FSB
