import Verif.Proof.MatvecJIT4

/-!
# C23 (JIT and AOT modes agree), C24 (padding does not change the result)
-/

set_option linter.unusedSectionVars false

namespace H2Pack.MV
open H2Pack.Part (Arr kids ClusterTree)
open Finset (range sum_congr mul_sum sum_mul sum_comm sum_add_distrib sum_range_succ mem_range)

section
variable {K : Type} [CommRing K]

/-! ## C24 -/

/-- C24.  `H2P_ext_krnl_bimv` with any `krnl_bimv` that meets its contract on multiples of `SIMD_LEN`, any number of points
and any contents `w` of the work buffer: to every cell `l` of the memory exactly the products of the unpadded points are
added.  (`kernD` is the sum over all entries `x_out_0[a*ldo0+i]`, `x_out_1[b*ldo1+j]` that are stored in cell `l`; a cell that
is none of them is unchanged.) -/
theorem C24_ext_bimv {ι : Type} [DecidableEq ι] {simd xdim kd : Nat} (hs : 0 < simd) {kern : (Nat → K) → (Nat → K) → Nat → Nat → K} {f : Bimv K}
    (hf : BimvSpec simd xdim kd kern f) (c0 : Nat → K) (ld0 n0 : Nat) (c1 : Nat → K) (ld1 n1 : Nat)
    (x0 x1 : Nat → K) (a0 a1 : Nat → ι) (ldi0 ldi1 ldo0 ldo1 : Nat) (w : Nat → K) (mem : ι → K) (l : ι) :
    extBimv simd xdim kd f c0 ld0 n0 c1 ld1 n1 x0 x1 a0 a1 ldi0 ldi1 ldo0 ldo1 w mem l = mem l +
      ((∑ a ∈ range kd, ∑ i ∈ range n0, if l = a0 (a * ldo0 + i) then
        ∑ b ∈ range kd, ∑ j ∈ range n1, kern (point xdim c0 ld0 i) (point xdim c1 ld1 j) a b * x0 (b * ldi0 + j) else 0) +
      ∑ b ∈ range kd, ∑ j ∈ range n1, if l = a1 (b * ldo1 + j) then
        ∑ a ∈ range kd, ∑ i ∈ range n0, kern (point xdim c0 ld0 i) (point xdim c1 ld1 j) a b * x1 (a * ldi1 + i) else 0) :=
  extBimv_adds hs hf c0 ld0 n0 c1 ld1 n1 x0 x1 a0 a1 ldi0 ldi1 ldo0 ldo1 w mem l

/-- C24.  The same for `H2P_ext_krnl_mv` (periodic system), where the padding coordinates are `pad`. -/
theorem C24_ext_mv {ι : Type} [DecidableEq ι] {simd xdim kd : Nat} (hs : 0 < simd) (pad : K) {kern : (Nat → K) → (Nat → K) → Nat → Nat → K} {f : KMv K}
    (hf : MvSpec simd xdim kd kern f) (c0 : Nat → K) (ld0 n0 : Nat) (c1 : Nat → K) (ld1 n1 : Nat)
    (x : Nat → K) (ldi : Nat) (A : Nat → ι) (ldo : Nat) (w : Nat → K) (mem : ι → K) (l : ι) :
    extMv simd xdim kd pad f c0 ld0 n0 c1 ld1 n1 x ldi A ldo w mem l =
      mem l + ∑ a ∈ range kd, ∑ i ∈ range n0, if l = A (a * ldo + i) then
        ∑ b ∈ range kd, ∑ j ∈ range n1, kern (point xdim c0 ld0 i) (point xdim c1 ld1 j) a b * x (b * ldi + j) else 0 :=
  extMv_adds hs pad hf c0 ld0 n0 c1 ld1 n1 x ldi A ldo w mem l

/-- C24.  The buffer of `(xdim+kd)*(n0_ext+n1_ext)*2` numbers that src/H2Pack_matvec.c:475 requests holds everything that is
written to it: the last array, `y_out_1`, ends inside it. -/
theorem C24_workbuf_size (simd xdim kd n0 n1 : Nat) :
    xdim * extend simd n0 + xdim * extend simd n1 + extend simd n1 * kd + extend simd n0 * kd + extend simd n0 * kd + extend simd n1 * kd ≤
      (xdim + kd) * (extend simd n0 + extend simd n1) * 2 := by
  generalize extend simd n0 = a
  generalize extend simd n1 = b
  nlinarith [Nat.zero_le (xdim * a), Nat.zero_le (xdim * b)]

/-- C24.  The padded sizes: the next multiple of the SIMD length. -/
theorem C24_extend {simd : Nat} (n : Nat) (h : 0 < simd) : n ≤ extend simd n ∧ extend simd n < n + simd ∧ simd ∣ extend simd n :=
  ⟨extend_ge h, extend_lt h, extend_dvd simd n⟩

/-! ## C23 -/

/-- C23.  `H2P_krnl_eval_bimv` with any positive row-block size, any kernel and any numbers of points computes the product
with the full kernel matrix (`x_out_1` may be the start of the matrix buffer, as for the diagonal blocks). -/
theorem C23_eval_bimv {ι : Type} [DecidableEq ι] (kern : (Nat → K) → (Nat → K) → Nat → Nat → K) {kd n0 n1 blk : Nat} (hk : 0 < kd) (hb : 0 < blk)
    (p0 p1 : Nat → Nat → K) (x0 x1 : Nat → K) {a0 a1 : Nat → ι ⊕ Nat} (h : Outs a0 a1) (fuel : Nat) (hf : n0 < fuel) (mem : ι ⊕ Nat → K) :
    ∃ m, evalBimv kern kd n0 n1 blk p0 p1 x0 x1 a0 a1 fuel 0 mem = .ok m ∧ ∀ l, m (.inl l) = mem (.inl l) +
      ((∑ r ∈ range (n0 * kd), if Sum.inl l = a0 r then ∑ c ∈ range (n1 * kd), kern (p0 (r / kd)) (p1 (c / kd)) (r % kd) (c % kd) * x0 c else 0) +
       ∑ c ∈ range (n1 * kd), if Sum.inl l = a1 c then ∑ r ∈ range (n0 * kd), kern (p0 (r / kd)) (p1 (c / kd)) (r % kd) (c % kd) * x1 r else 0) := by
  obtain ⟨m, e, hm⟩ := evalBimv_spec kern hk hb (n0 := n0) (n1 := n1) p0 p1 x0 x1 h fuel 0 mem (by omega)
  refine ⟨m, e, fun l => ?_⟩
  rw [hm]
  simp only [Nat.zero_mul, Nat.zero_add, Nat.sub_zero]
  rfl

/-- C23.  JIT mode (with or without a `krnl_bimv` routine): for all large enough fuels (that is: the program terminates) the
result is defined and is the matrix-vector product of AOT mode, whatever the schedules, the numbers of threads and the
buffer contents of the two runs are. -/
theorem C23_jit_eq_aot {J : JIT K} (h : J.Ok) (E E' : Env K) (hE : E.Valid J.aot) (hE' : E'.Valid J.aot) (g g' : (Nat → Nat) × (Nat → Nat))
    (dx dy dx' dy' : Nat → K) (g0 g1 : Nat → Nat → K) (gx x : Nat → K) :
    ∃ N, ∀ fuel, N ≤ fuel → ∃ y, J.matvec E g dx dy g0 g1 gx fuel x = .ok y ∧
      ∀ k < J.R.nPoint * J.R.kdim, y k = matvec J.aot E' g' dx' dy' x k := by
  obtain ⟨N, hN⟩ := jit_spec h E hE g0 g1 gx (permuteFwd J.R g x dx)
  refine ⟨N, fun fuel hf => ?_⟩
  obtain ⟨y, e, hy⟩ := hN fuel hf
  refine ⟨permuteBwd J.R g y dy, ?_, fun k hk => ?_⟩
  · unfold JIT.matvec
    rw [e]; rfl
  · rw [C22_history_independent h.wf E' E hE' hE g' g dx' dy' dx dy x x (fun _ _ => rfl) k hk]
    have hu : matvec J.aot E g dx dy x = permuteBwd J.aot g (matvecPmt J.aot E (permuteFwd J.aot g x dx)) dy := rfl
    rw [hu]
    have hpb : permuteBwd J.aot g = permuteBwd (K := K) J.R g := rfl
    have hpf : permuteFwd J.aot g = permuteFwd (K := K) J.R g := rfl
    rw [hpb, hpf]
    have hp : ((List.range J.R.nPoint).map J.R.coordIdx).Perm (List.range J.R.nPoint) := h.wf.perm
    obtain ⟨p, hp', a, ha, rfl⟩ := row_split hk
    obtain ⟨i, hi, rfl⟩ := perm_surj hp hp'
    rw [(C26_permutations J.R hp g y dy dy).2.1 i hi a ha, (C26_permutations J.R hp g _ dy dy).2.1 i hi a ha]
    exact hy _ (row_lt hi ha)

/-- C23, in terms of the matrix that the representation with the kernel blocks stands for. -/
theorem C23_jit_product {J : JIT K} (h : J.Ok) {W : Nat → Nat → Nat → K} (hW : Nested J.aot W) (E : Env K) (hE : E.Valid J.aot) (g : (Nat → Nat) × (Nat → Nat))
    (dx dy : Nat → K) (g0 g1 : Nat → Nat → K) (gx x : Nat → K) :
    ∃ N, ∀ fuel, N ≤ fuel → ∃ y, J.matvec E g dx dy g0 g1 gx fuel x = .ok y ∧
      ∀ i < J.R.nPoint, ∀ a < J.R.kdim, y (J.R.coordIdx i * J.R.kdim + a) =
        ∑ j ∈ range J.R.nPoint, ∑ b ∈ range J.R.kdim, entry J.aot W (i * J.R.kdim + a) (j * J.R.kdim + b) * x (J.R.coordIdx j * J.R.kdim + b) := by
  obtain ⟨N, hN⟩ := C23_jit_eq_aot h E E hE hE g g dx dy dx dy g0 g1 gx x
  refine ⟨N, fun fuel hf => ?_⟩
  obtain ⟨y, e, hy⟩ := hN fuel hf
  refine ⟨y, e, fun i hi a ha => ?_⟩
  have hp : ((List.range J.R.nPoint).map J.R.coordIdx).Perm (List.range J.R.nPoint) := h.wf.perm
  rw [hy _ (row_lt (perm_lt hp hi) ha)]
  exact (C20_matvec h.wf hW E hE g dx dy x).1 i hi a ha

/-! ### Without `krnl_bimv`, blocks with many columns are never finished -/

theorem foldlM_diverge {α σ : Type} (f : σ → α → Res σ) (L : List α) (h1 : ∀ x ∈ L, ∀ s, f s x ≠ .ub) (h2 : ∃ x ∈ L, ∀ s, f s x = .diverge) (s : σ) :
    L.foldlM f s = .diverge := by
  induction L generalizing s with
  | nil => obtain ⟨x, hx, _⟩ := h2; simp at hx
  | cons y L ih =>
    rw [List.foldlM_cons]
    cases hy : f s y with
    | ub => exact absurd hy (h1 y List.mem_cons_self s)
    | diverge => rfl
    | ok a =>
      rw [Res.bind_ok]
      apply ih (fun x hx => h1 x (List.mem_cons_of_mem _ hx))
      obtain ⟨x, hx, h⟩ := h2
      rcases List.mem_cons.1 hx with rfl | hx
      · rw [h s] at hy; cases hy
      · exact ⟨x, hx, h⟩

theorem foldlM_no_ub {α σ : Type} (f : σ → α → Res σ) (L : List α) (h1 : ∀ x ∈ L, ∀ s, f s x ≠ .ub) (s : σ) : L.foldlM f s ≠ .ub := by
  induction L generalizing s with
  | nil => intro h; cases h
  | cons y L ih =>
    rw [List.foldlM_cons]
    cases hy : f s y with
    | ub => exact absurd hy (h1 y List.mem_cons_self s)
    | diverge => intro h; cases h
    | ok a => exact ih (fun x hx => h1 x (List.mem_cons_of_mem _ hx)) a

theorem evalBimv_no_ub {ι : Type} [DecidableEq ι] (kern : (Nat → K) → (Nat → K) → Nat → Nat → K) (kd n0 n1 blk : Nat)
    (p0 p1 : Nat → Nat → K) (x0 x1 : Nat → K) (a0 a1 : Nat → ι ⊕ Nat) :
    ∀ fuel s mem, evalBimv kern kd n0 n1 blk p0 p1 x0 x1 a0 a1 fuel s mem ≠ .ub := by
  intro fuel
  induction fuel with
  | zero => intro s mem h; cases h
  | succ fuel ih =>
    intro s mem
    unfold evalBimv
    split
    · exact ih _ _
    · intro h; cases h

theorem call_no_ub {J : JIT K} (hk : 0 < J.R.kdim) {fuel junk ncol : Nat} (hn : 0 < ncol) (p q : (Nat → K) × Nat × Nat)
    (xb0 xb1 : Nat → K) (ab0 ab1 : Nat → Loc ⊕ Nat) (ldi0 ldi1 ldo0 ldo1 : Nat) (xe0 xe1 : Nat → K) (ae0 ae1 : Nat → Loc ⊕ Nat) (mem : Loc → K) :
    J.call fuel junk ncol p q xb0 xb1 ab0 ab1 ldi0 ldi1 ldo0 ldo1 xe0 xe1 ae0 ae1 mem ≠ .ub := by
  unfold JIT.call
  split
  · intro h; cases h
  · rw [if_neg (by omega)]
    cases he : evalBimv J.kern J.R.kdim p.2.2 q.2.2 (16384 / ncol / J.R.kdim) (point J.xdim p.1 p.2.1) (point J.xdim q.1 q.2.1) xe0 xe1 ae0 ae1 fuel 0
      (JIT.lift mem (J.junkM junk)) with
    | ub => exact absurd he (evalBimv_no_ub _ _ _ _ _ _ _ _ _ _ _ _ _ _)
    | ok a => intro h; cases h
    | diverge => intro h; cases h

theorem call_diverges {J : JIT K} (hb : J.bimv = none) (hk : 0 < J.R.kdim) {fuel junk ncol : Nat} (hn : 0 < ncol) (hbig : 16384 < ncol * J.R.kdim)
    (p q : (Nat → K) × Nat × Nat) (hp : 0 < p.2.2)
    (xb0 xb1 : Nat → K) (ab0 ab1 : Nat → Loc ⊕ Nat) (ldi0 ldi1 ldo0 ldo1 : Nat) (xe0 xe1 : Nat → K) (ae0 ae1 : Nat → Loc ⊕ Nat) (mem : Loc → K) :
    J.call fuel junk ncol p q xb0 xb1 ab0 ab1 ldi0 ldi1 ldo0 ldo1 xe0 xe1 ae0 ae1 mem = .diverge := by
  unfold JIT.call
  rw [hb]
  dsimp only
  have h0 : 16384 / ncol / J.R.kdim = 0 := by
    rw [Nat.div_div_eq_div_mul]
    exact Nat.div_eq_of_lt hbig
  rw [if_neg (by omega), h0, evalBimv_diverges _ hp]
  rfl

/-- C23, a limit of the code.  Without a `krnl_bimv` routine a row block holds `131072 / 8 / ncol / krnl_dim` points.  If a
compressed block with valid sizes has `ncol * krnl_dim > 16384`, this is zero and `H2P_matvec` does not terminate. -/
theorem C23_endless_row_block {J : JIT K} (hw : WF J.aot) (hr : ∀ v < J.R.arr.nNode, J.R.minAdm ≤ J.R.arr.level v → (J.R.U v).ncol = J.jn v * J.R.kdim)
    (hb : J.bimv = none) (i : Nat) (hi : i < J.R.adm.length) (hbig : 16384 < (J.aot.B i).ncol * J.R.kdim)
    (E : Env K) (hE : E.Valid J.aot) (g : (Nat → Nat) × (Nat → Nat)) (dx dy : Nat → K) (g0 g1 : Nat → Nat → K) (gx x : Nat → K) :
    Diverges (fun fuel => J.matvec E g dx dy g0 g1 gx fuel x) := by
  intro fuel
  have hk : 0 < J.R.kdim := hw.kdim
  unfold JIT.matvec JIT.matvecPmt
  dsimp only
  generalize (if J.needTrans then JIT.transp J.R.nPoint J.R.kdim _ gx else _) = xx
  generalize (if J.needTrans then J.transY0 g0 _ else _) = y0
  have jpos : ∀ v, v < J.R.arr.nNode → J.R.minAdm ≤ J.R.arr.level v → 0 < J.jn v := by
    intro v hv hl
    have := hw.rank v hv hl
    have e : (J.aot.U v).ncol = J.jn v * J.R.kdim := hr v hv hl
    rw [e] at this
    exact Nat.pos_of_mul_pos_right this
  have side : ∀ v w, v < J.R.arr.nNode → J.R.minAdm ≤ max (J.R.arr.level v) (J.R.arr.level w) → 0 < (J.sidePts v w).2.2 := by
    intro v w hv hm
    unfold JIT.sidePts
    split
    · exact jpos v hv (by omega)
    · exact npt_pos v
  have hB : ∀ i, J.aot.B i = J.block (J.sidePts (J.R.adm.getD i (0, 0)).1 (J.R.adm.getD i (0, 0)).2) (J.sidePts (J.R.adm.getD i (0, 0)).2 (J.R.adm.getD i (0, 0)).1) := fun i => rfl
  have bpos : ∀ i, i < J.R.adm.length → 0 < (J.aot.B i).ncol ∧ 0 < (J.sidePts (J.R.adm.getD i (0, 0)).1 (J.R.adm.getD i (0, 0)).2).2.2 := by
    intro i hi
    have hm := List.getElem_mem hi
    have h1 := hw.admNode _ hm
    have h2 := hw.admLevel _ hm
    rw [hB, getD_adm hi]
    refine ⟨Nat.mul_pos (side _ _ h1.2 ?_) hk, side _ _ h1.1 h2⟩
    rw [max_comm]; exact h2
  have nub : ∀ t i m, i < J.R.adm.length → J.intmdPair E xx y0 fuel t m i ≠ .ub := by
    intro t i m hi
    have hp := (bpos i hi).1
    unfold JIT.intmdPair
    dsimp only
    rw [if_neg (by omega)]
    split
    · exact call_no_ub hk hp _ _ _ _ _ _ _ _ _ _ _ _ _ _ _
    · split
      · exact call_no_ub hk hp _ _ _ _ _ _ _ _ _ _ _ _ _ _ _
      · exact call_no_ub hk hp _ _ _ _ _ _ _ _ _ _ _ _ _ _ _
  have div : ∀ t m, J.intmdPair E xx y0 fuel t m i = .diverge := by
    intro t m
    have hp := bpos i hi
    unfold JIT.intmdPair
    dsimp only
    rw [if_neg (by omega)]
    have hs := hp.2
    unfold JIT.sidePts at hs
    split
    · next hl =>
      rw [if_pos (by omega)] at hs
      exact call_diverges hb hk hp.1 hbig _ _ hs _ _ _ _ _ _ _ _ _ _ _ _ _
    · split
      · next hl =>
        rw [if_pos (by omega)] at hs
        exact call_diverges hb hk hp.1 hbig _ _ hs _ _ _ _ _ _ _ _ _ _ _ _ _
      · next hl _ =>
        exact call_diverges hb hk hp.1 hbig _ _ (npt_pos _) _ _ _ _ _ _ _ _ _ _ _ _ _
  obtain ⟨b, hb1, hb2, hb3⟩ : ∃ b < E.nB, E.blkB b ≤ i ∧ i < E.blkB (b + 1) := by
    have hc := hE.cutB
    have key : ∀ n, n ≤ E.nB → i < E.blkB n → ∃ b < n, E.blkB b ≤ i ∧ i < E.blkB (b + 1) := by
      intro n
      induction n with
      | zero => intro _ h; rw [hc.1] at h; omega
      | succ n ih =>
        intro hn h
        by_cases hlt : i < E.blkB n
        · obtain ⟨b, h1, h2⟩ := ih (by omega) hlt
          exact ⟨b, by omega, h2⟩
        · exact ⟨n, by omega, by omega, h⟩
    exact key _ (le_refl _) (by rw [hc.2.1]; exact hi)
  have taskUb : ∀ tb ∈ E.schedB, ∀ m, JIT.task E.blkB (J.intmdPair E xx y0 fuel tb.1) m tb.2 ≠ .ub := by
    intro tb htb m
    unfold JIT.task
    apply foldlM_no_ub
    intro j hj s
    rw [List.mem_range'_1] at hj
    apply nub
    have hx2 : tb.2 < E.nB := List.mem_range.1 (hE.schedB.1.mem_iff.1 (List.mem_map.2 ⟨tb, htb, rfl⟩))
    exact cuts_lt hE.cutB hx2 (by omega)
  have hd : E.schedB.foldlM (fun mem tb => JIT.task E.blkB (J.intmdPair E xx y0 fuel tb.1) mem tb.2) (initMem J.R E) = .diverge := by
    apply foldlM_diverge _ _ taskUb
    have : b ∈ E.schedB.map Prod.snd := hE.schedB.1.mem_iff.2 (List.mem_range.2 hb1)
    obtain ⟨tb, htb, e⟩ := List.mem_map.1 this
    refine ⟨tb, htb, fun m => ?_⟩
    rw [e]
    unfold JIT.task
    apply foldlM_diverge
    · intro j hj s
      rw [List.mem_range'_1] at hj
      exact nub _ _ _ (cuts_lt hE.cutB hb1 (by omega))
    · exact ⟨i, by rw [List.mem_range'_1]; omega, fun s => div _ s⟩
  rw [hd]
  rfl

/-! ## Concrete cases -/

/-- Sufficient conditions in terms of the data the user and the build phase supply. -/
theorem jit_ok (J : JIT K) (tree : ClusterTree J.R.arr J.R.nPoint) (kdim : 0 < J.R.kdim)
    (perm : ((List.range J.R.nPoint).map J.R.coordIdx).Perm (List.range J.R.nPoint)) (simd : 0 < J.simd)
    (jpos : ∀ v < J.R.arr.nNode, J.R.minAdm ≤ J.R.arr.level v → 0 < J.jn v)
    (rankJ : ∀ v < J.R.arr.nNode, (J.R.U v).ncol = J.jn v * J.R.kdim)
    (uLeaf : ∀ v < J.R.arr.nNode, J.R.minAdm ≤ J.R.arr.level v → J.R.arr.nChild v = 0 → (J.R.U v).nrow = J.npt v * J.R.kdim)
    (uInner : ∀ v < J.R.arr.nNode, J.R.minAdm ≤ J.R.arr.level v → J.R.arr.nChild v ≠ 0 → (J.R.U v).nrow = off J.R v (J.R.arr.nChild v))
    (adm : ∀ x ∈ J.R.adm, x.1 < J.R.arr.nNode ∧ x.2 < J.R.arr.nNode ∧ J.R.minAdm ≤ max (J.R.arr.level x.1) (J.R.arr.level x.2) ∧
      J.R.mark x.1 ≠ 0 ∧ J.R.mark x.2 ≠ 0)
    (inadm : ∀ x ∈ J.R.inadm, x.1 < J.R.arr.nNode ∧ x.2 < J.R.arr.nNode)
    (bimv : ∀ f, J.bimv = some f → BimvSpec J.simd J.xdim J.R.kdim J.kern f)
    (small : J.bimv = none → ∀ v < J.R.arr.nNode, J.npt v * J.R.kdim * J.R.kdim ≤ 16384 ∧ J.jn v * J.R.kdim * J.R.kdim ≤ 16384) : J.Ok := by
  have hrow : ∀ v < J.R.arr.nNode, J.aot.rowE v - J.aot.rowS v = J.npt v * J.R.kdim := by
    intro v hv
    have := tree.clusterLe v hv
    show J.R.kdim * (J.R.arr.ptE v + 1) - J.R.kdim * J.R.arr.ptS v = _
    rw [← Nat.mul_sub, Nat.mul_comm]
    unfold JIT.npt
    congr 1
    omega
  have hleaf : ∀ i < J.R.arr.nLeaf, J.R.leaf i < J.R.arr.nNode := by
    intro i hi
    have hh := tree.heightList 0
    have hlen := congrArg List.length hh
    rw [List.length_map, List.length_range] at hlen
    have hz : ∀ v < J.R.arr.nNode, J.R.arr.height v = 0 ↔ J.R.arr.nChild v = 0 := by
      intro v hv
      constructor
      · intro h0
        by_contra hne
        obtain ⟨c, _, hc⟩ := (tree.nodeHeight v hv hne).2
        omega
      · exact tree.leafHeight v hv
    have hcount : ((List.range J.R.arr.nNode).filter (fun v => J.R.arr.height v = 0)) = (List.range J.R.arr.nNode).filter (fun v => J.R.arr.nChild v = 0) := by
      apply List.filter_congr
      intro v hv
      simp only [decide_eq_decide]
      exact hz v (List.mem_range.1 hv)
    rw [hcount] at hh hlen
    rw [← tree.nLeaf] at hlen
    have hm : J.R.leaf i ∈ (List.range (J.R.arr.heightN 0)).map (fun r => J.R.arr.heightNodes (0 * J.R.arr.nLeaf + r)) := by
      refine List.mem_map.2 ⟨i, List.mem_range.2 (by omega), ?_⟩
      rw [Nat.zero_mul, Nat.zero_add]; rfl
    rw [hh, List.mem_filter, List.mem_range] at hm
    exact hm.1
  have hside : ∀ v w, v < J.R.arr.nNode → (J.sidePts v w).2.2 * J.R.kdim =
      if J.R.arr.level w ≤ J.R.arr.level v then (J.R.U v).ncol else J.aot.rowE v - J.aot.rowS v := by
    intro v w hv
    unfold JIT.sidePts
    split
    · exact (rankJ v hv).symm
    · exact (hrow v hv).symm
  have hD0 : ∀ i < J.R.arr.nLeaf, J.aot.D i = J.block (J.cPts (J.R.leaf i)) (J.cPts (J.R.leaf i)) := by
    intro i hi
    show (if i < J.R.arr.nLeaf then _ else _) = _
    rw [if_pos hi]
  have hD1 : ∀ i (hi : i < J.R.inadm.length), J.aot.D (J.R.arr.nLeaf + i) = J.block (J.cPts J.R.inadm[i].1) (J.cPts J.R.inadm[i].2) := by
    intro i hi
    show (if J.R.arr.nLeaf + i < J.R.arr.nLeaf then _ else _) = _
    rw [if_neg (by omega), Nat.add_sub_cancel_left, getD_inadm hi]
  have hB : ∀ i (hi : i < J.R.adm.length), J.aot.B i = J.block (J.sidePts J.R.adm[i].1 J.R.adm[i].2) (J.sidePts J.R.adm[i].2 J.R.adm[i].1) := by
    intro i hi
    show J.block (J.sidePts (J.R.adm.getD i (0, 0)).1 (J.R.adm.getD i (0, 0)).2) (J.sidePts (J.R.adm.getD i (0, 0)).2 (J.R.adm.getD i (0, 0)).1) = _
    rw [getD_adm hi]
  refine ⟨⟨tree, kdim, perm, ?_, ?_, uInner, fun x hx => ⟨(adm x hx).1, (adm x hx).2.1⟩, fun x hx => (adm x hx).2.2.1,
    fun x hx => ⟨fun _ => (adm x hx).2.2.2.1, fun _ => (adm x hx).2.2.2.2⟩, ?_, ?_, inadm, ?_, ?_⟩, simd, fun v hv _ => rankJ v hv, bimv, ?_, ?_⟩
  · intro v hv hl
    show 0 < (J.R.U v).ncol
    rw [rankJ v hv]
    exact Nat.mul_pos (jpos v hv hl) kdim
  · intro v hv hl h0
    rw [hrow v hv]
    exact uLeaf v hv hl h0
  · intro i hi
    rw [hB i hi]
    exact hside _ _ (adm _ (List.getElem_mem hi)).1
  · intro i hi
    rw [hB i hi]
    exact hside _ _ (adm _ (List.getElem_mem hi)).2.1
  · intro i hi
    have e : J.aot.rowE (J.aot.leaf i) - J.aot.rowS (J.aot.leaf i) = _ := hrow _ (hleaf i hi)
    rw [hD0 i hi, e]
    exact ⟨rfl, rfl⟩
  · intro i hi
    have hi' : i < J.R.inadm.length := hi
    have hn := inadm _ (List.getElem_mem hi')
    have e2 : J.aot.arr.nLeaf = J.R.arr.nLeaf := rfl
    rw [e2, hD1 i hi']
    exact ⟨(hrow _ hn.1).symm, (hrow _ hn.2).symm⟩
  · intro hb i hi
    rw [hB i hi]
    show (J.sidePts _ _).2.2 * J.R.kdim * J.R.kdim ≤ _
    have hs := small hb _ (adm _ (List.getElem_mem hi)).2.1
    unfold JIT.sidePts
    split
    · exact hs.2
    · exact hs.1
  · intro hb i hi
    by_cases h1 : i < J.R.arr.nLeaf
    · rw [hD0 i h1]
      exact (small hb _ (hleaf i h1)).1
    · obtain ⟨t, rfl⟩ : ∃ t, i = J.R.arr.nLeaf + t := ⟨i - J.R.arr.nLeaf, by omega⟩
      have ht : t < J.R.inadm.length := by omega
      rw [hD1 t ht]
      exact (small hb _ (inadm _ (List.getElem_mem ht)).2).1

/-- A routine that meets the contract of `kernel_bimv_fptr`. -/
def goodBimv (xdim kd : Nat) (kern : (Nat → K) → (Nat → K) → Nat → Nat → K) : Bimv K := fun n0 n1 oT oS oX0 oX1 oY0 oY1 w k =>
  if oY0 ≤ k ∧ k < oY0 + n0 * kd then w k + ∑ b ∈ range kd, ∑ j ∈ range n1,
      kern (point xdim (fun k => w (oT + k)) n0 ((k - oY0) % n0)) (point xdim (fun k => w (oS + k)) n1 j) ((k - oY0) / n0) b * w (oX0 + (b * n1 + j))
  else if oY1 ≤ k ∧ k < oY1 + n1 * kd then w k + ∑ a ∈ range kd, ∑ i ∈ range n0,
      kern (point xdim (fun k => w (oT + k)) n0 i) (point xdim (fun k => w (oS + k)) n1 ((k - oY1) % n1)) a ((k - oY1) / n1) * w (oX1 + (a * n0 + i))
  else w k

theorem goodBimv_spec (simd xdim kd : Nat) (kern : (Nat → K) → (Nat → K) → Nat → Nat → K) : BimvSpec simd xdim kd kern (goodBimv xdim kd kern) := by
  intro n0 n1 oT oS oX0 oX1 oY0 oY1 w _ _ _ _ _ _ h5
  constructor
  · intro a ha i hi
    have := idx_lt ha hi
    rw [Nat.mul_comm kd] at this
    unfold goodBimv
    rw [if_pos ⟨by omega, by omega⟩, Nat.add_sub_cancel_left, Nat.mul_comm a n0, Nat.mul_add_mod, Nat.mul_add_div (by omega),
      Nat.mod_eq_of_lt hi, Nat.div_eq_of_lt hi, Nat.add_zero]
  · intro b hb j hj
    have := idx_lt hb hj
    rw [Nat.mul_comm kd] at this
    unfold goodBimv
    rw [if_neg (by omega), if_pos ⟨by omega, by omega⟩, Nat.add_sub_cancel_left, Nat.mul_comm b n1, Nat.mul_add_mod, Nat.mul_add_div (by omega),
      Nat.mod_eq_of_lt hj, Nat.div_eq_of_lt hj, Nat.add_zero]

end

/-- Six points on a line in four or more clusters, `krnl_dim = 2`, `N` skeleton points per node, kernel `p₀ + q₀² + 3a + b`. -/
def demoJIT (A : Arr ℚ) (n : Nat) (c : Nat → ℚ) (adm inadm : List (Nat × Nat)) (minAdm N : Nat) (f : Option (Bimv ℚ)) : JIT ℚ where
  R := { demoRep A n adm inadm minAdm with
    U := fun v => ⟨if A.nChild v = 0 then (A.ptE v - A.ptS v + 1) * 2 else A.nChild v * (N * 2), N * 2, fun i j => if i = j then 1 else 2⟩ }
  simd := 4
  xdim := 1
  kern p q a b := p 0 + q 0 * q 0 + 3 * a + b
  bimv := f
  coord := c
  jn _ := N
  jc v k := c (A.ptS v + k)
  junkM _ _ := 7
  junkW _ _ := 7

theorem demo_jit (N : Nat) (hN : 0 < N) (f : Option (Bimv ℚ)) (hN2 : f = none → N ≤ 4096) (hf : ∀ g, f = some g → BimvSpec 4 1 2 (fun p q a b => p 0 + q 0 * q 0 + 3 * (a : ℚ) + b) g) :
    ∃ J : JIT ℚ, J.Ok ∧ J.bimv = f ∧ J.R.nPoint = 6 ∧ J.R.kdim = 2 ∧ J.R.adm.length = 2 ∧ J.jn = (fun _ => N) ∧
      ∀ i < 1, (J.aot.B i).ncol = N * 2 := by
  obtain ⟨O, h, h2⟩ := H2Pack.Part.line_partition
  have hr : O.arr.nNode - 1 < O.arr.nNode := by have := h.tree.nonempty; omega
  have hlen : (kids O.arr (O.arr.nNode - 1)).length = O.arr.nChild (O.arr.nNode - 1) := by unfold kids; simp
  have hk : ∀ i (hi : i < (kids O.arr (O.arr.nNode - 1)).length), (kids O.arr (O.arr.nNode - 1))[i] < O.arr.nNode ∧
      O.arr.level (kids O.arr (O.arr.nNode - 1))[i] = 1 := by
    intro i hi
    have := h.tree.childLt _ hr _ (List.getElem_mem hi)
    have h3 := h.tree.childLevel _ hr _ (List.getElem_mem hi)
    have h4 := h.tree.rootLevel
    omega
  have a := hk 0 (by omega)
  have b := hk 1 (by omega)
  refine ⟨demoJIT O.arr 6 (fun i => i) [((kids O.arr (O.arr.nNode - 1))[0], (kids O.arr (O.arr.nNode - 1))[1]), ((kids O.arr (O.arr.nNode - 1))[0], O.arr.nNode - 1)]
    [((kids O.arr (O.arr.nNode - 1))[0], (kids O.arr (O.arr.nNode - 1))[1])] 1 N f, ?_, rfl, rfl, rfl, rfl, rfl, ?_⟩
  swap
  · intro i hi
    rw [show i = 0 by omega]
    show (JIT.sidePts _ _ _).2.2 * 2 = _
    unfold JIT.sidePts
    rw [if_pos]
    · rfl
    · exact le_of_eq (a.2.trans b.2.symm)
  apply jit_ok
  · exact h.tree
  · show 0 < 2; omega
  · exact demo_perm 6
  · show 0 < 4; omega
  · intro v _ _; exact hN
  · intro v _; rfl
  · intro v _ _ h0
    show (if O.arr.nChild v = 0 then _ else _) = _
    rw [if_pos (show O.arr.nChild v = 0 from h0)]; rfl
  · intro v _ _ h0
    show (if O.arr.nChild v = 0 then _ else _) = _
    rw [if_neg (show ¬ O.arr.nChild v = 0 from h0)]
    unfold off
    show O.arr.nChild v * (N * 2) = ∑ _ ∈ range (O.arr.nChild v), N * 2
    simp
  · intro x hx
    have hx' : x ∈ [((kids O.arr (O.arr.nNode - 1))[0], (kids O.arr (O.arr.nNode - 1))[1]), ((kids O.arr (O.arr.nNode - 1))[0], O.arr.nNode - 1)] := hx
    rcases List.mem_cons.1 hx' with rfl | hx'
    · exact ⟨a.1, b.1, le_trans (le_of_eq a.2.symm) (le_max_left _ _), Nat.one_ne_zero, Nat.one_ne_zero⟩
    · rw [List.mem_singleton] at hx'; subst hx'
      exact ⟨a.1, hr, le_trans (le_of_eq a.2.symm) (le_max_left _ _), Nat.one_ne_zero, Nat.one_ne_zero⟩
  · intro x hx
    have hx' : x ∈ [((kids O.arr (O.arr.nNode - 1))[0], (kids O.arr (O.arr.nNode - 1))[1])] := hx
    rw [List.mem_singleton] at hx'; subst hx'
    exact ⟨a.1, b.1⟩
  · exact hf
  · intro hb v hv
    have h1 := h.tree.clusterLt v hv
    have : (demoJIT O.arr 6 (fun i => i) [((kids O.arr (O.arr.nNode - 1))[0], (kids O.arr (O.arr.nNode - 1))[1]), ((kids O.arr (O.arr.nNode - 1))[0], O.arr.nNode - 1)]
      [((kids O.arr (O.arr.nNode - 1))[0], (kids O.arr (O.arr.nNode - 1))[1])] 1 N f).npt v = O.arr.ptE v - O.arr.ptS v + 1 := rfl
    rw [this]
    show (_ * 2 * 2 ≤ 16384) ∧ N * 2 * 2 ≤ 16384
    have := hN2 hb
    omega

/-- The hypotheses of C23 are met in both variants. -/
example : ∃ J : JIT ℚ, J.Ok ∧ J.bimv = none ∧ J.R.adm.length = 2 ∧ (demoEnv J.aot).Valid J.aot := by
  obtain ⟨J, h, h1, _, _, h2, _⟩ := demo_jit 1 (by omega) none (by intro; omega) (by intro g hg; cases hg)
  exact ⟨J, h, h1, h2, demo_valid _⟩

example : ∃ J : JIT ℚ, J.Ok ∧ J.bimv.isSome ∧ J.R.kdim = 2 ∧ J.R.adm.length = 2 ∧ (demoEnv J.aot).Valid J.aot := by
  obtain ⟨J, h, h1, _, hk, h2, _⟩ := demo_jit 3 (by omega) (some (goodBimv 1 2 _)) (by intro h; cases h) (by intro g hg; cases hg; exact goodBimv_spec 4 1 2 _)
  exact ⟨J, h, by rw [h1]; rfl, hk, h2, demo_valid _⟩

/-- The hypotheses of `C23_endless_row_block` are met: 5000 skeleton points per node, `krnl_dim = 2`. -/
example : ∃ J : JIT ℚ, WF J.aot ∧ (∀ v < J.R.arr.nNode, J.R.minAdm ≤ J.R.arr.level v → (J.R.U v).ncol = J.jn v * J.R.kdim) ∧ J.bimv = none ∧
    0 < J.R.adm.length ∧ 16384 < (J.aot.B 0).ncol * J.R.kdim := by
  obtain ⟨J, h, h1, _, hk, h2, _, h3⟩ := demo_jit 5000 (by omega) (some (goodBimv 1 2 _)) (by intro h; cases h) (by intro g hg; cases hg; exact goodBimv_spec 4 1 2 _)
  refine ⟨{ J with bimv := none }, h.wf, h.rankJ, rfl, by show 0 < J.R.adm.length; omega, ?_⟩
  show 16384 < (J.aot.B 0).ncol * J.R.kdim
  rw [h3 0 (by omega), hk]
  omega

/-- The contract in C24 is met by a routine, for every SIMD length and kernel. -/
example (kern : (Nat → ℚ) → (Nat → ℚ) → Nat → Nat → ℚ) : BimvSpec 8 3 2 kern (goodBimv 3 2 kern) := goodBimv_spec _ _ _ _

end H2Pack.MV
