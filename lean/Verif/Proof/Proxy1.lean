import Verif.Spec.ProxyPoint
import Verif.Props.ID
import Verif.Props.BlockPart

/-! # Proxy points: rings, kernel matrices, selection -/

namespace H2Pack.Proxy
open H2Pack.ID H2Pack.MV

theorem pointInBox_iff (dim : Nat) (x : Pt) (L : ℝ) : pointInBox dim x L = true ↔ InBox dim L x := by
  unfold pointInBox InBox
  rw [List.all_eq_true]
  constructor
  · intro h j hj
    have := h j (List.mem_range.2 hj)
    simp only [Bool.not_eq_true', Bool.or_eq_false_iff, decide_eq_false_iff_not, not_lt] at this
    rw [abs_le]
    constructor <;> linarith [this.1, this.2]
  · intro h j hj
    have := abs_le.1 (h j (List.mem_range.1 hj))
    simp only [Bool.not_eq_true', Bool.or_eq_false_iff, decide_eq_false_iff_not, not_lt]
    constructor <;> linarith [this.1, this.2]

theorem pointInBox_false (dim : Nat) (x : Pt) (L : ℝ) : pointInBox dim x L = false ↔ ¬ InBox dim L x := by
  rw [← pointInBox_iff, Bool.not_eq_true]

theorem InBox.mono {dim : Nat} {L L' : ℝ} {x : Pt} (h : InBox dim L x) (hL : L ≤ L') : InBox dim L' x := fun j hj => le_trans (h j hj) (by linarith)

theorem ringDraw_spec {dim : Nat} {L0 L1 : ℝ} {rnd : Nat → ℝ} : ∀ fr t {x : Pt} {t' : Nat}, ringDraw dim L0 L1 rnd fr t = .ok (x, t') → InBox dim L1 x ∧ ¬ InBox dim L0 x := by
  intro fr
  induction fr with
  | zero => intro t x t' h; simp [ringDraw] at h
  | succ fr ih =>
    intro t x t' h
    rw [ringDraw] at h
    split at h
    · next hc =>
      rw [Res.ok.injEq, Prod.mk.injEq] at h
      rw [← h.1]
      exact ⟨(pointInBox_iff _ _ _).1 hc.1, (pointInBox_false _ _ _).1 hc.2⟩
    · exact ih _ h

theorem genRing_spec {dim : Nat} {L0 L1 : ℝ} {rnd : Nat → ℝ} {fr : Nat} : ∀ n t {l : List Pt} {t' : Nat}, genRing dim L0 L1 rnd fr n t = .ok (l, t') →
    l.length = n ∧ ∀ x ∈ l, InBox dim L1 x ∧ ¬ InBox dim L0 x := by
  intro n
  induction n with
  | zero =>
    intro t l t' h
    simp only [genRing, Res.ok.injEq, Prod.mk.injEq] at h
    rw [← h.1]; simp
  | succ n ih =>
    intro t l t' h
    rw [genRing] at h
    cases ha : ringDraw dim L0 L1 rnd fr t with
    | ub => rw [ha] at h; simp at h
    | diverge => rw [ha] at h; simp at h
    | ok a =>
      rw [ha, Res.bind_ok] at h
      cases hb : genRing dim L0 L1 rnd fr n a.2 with
      | ub => rw [hb] at h; simp at h
      | diverge => rw [hb] at h; simp at h
      | ok b =>
        rw [hb, Res.bind_ok, Res.ok.injEq, Prod.mk.injEq] at h
        obtain ⟨h1, h2⟩ := ih a.2 (l := b.1) (t' := b.2) hb
        rw [← h.1]
        refine ⟨by simp [h1], ?_⟩
        intro x hx
        rcases List.mem_cons.1 hx with rfl | hx
        · exact ringDraw_spec fr t (x := a.1) (t' := a.2) ha
        · exact h2 x hx

theorem genLayers_spec {G : Gen} {fr : Nat} (h23 : G.L2 ≤ G.L3) : ∀ k i t {l : List (List Pt)} {t' : Nat}, k + i = (nLayer G).toNat → genLayers G fr k i t = .ok (l, t') →
    l.length = k ∧ ∀ P ∈ l, P.length = G.nY ∧ ∀ x ∈ P, InBox G.dim G.L3 x ∧ ¬ InBox G.dim G.L2 x := by
  intro k
  induction k with
  | zero =>
    intro i t l t' _ h
    simp only [genLayers, Res.ok.injEq, Prod.mk.injEq] at h
    rw [← h.1]; simp
  | succ k ih =>
    intro i t l t' hk h
    rw [genLayers] at h
    have hpos : 0 < nLayer G := by omega
    have hr : (0 : ℝ) < nLayer G := by exact_mod_cast hpos
    have hw : 0 ≤ (G.L3 - G.L2) / (nLayer G : ℝ) := div_nonneg (by linarith) hr.le
    set w := (G.L3 - G.L2) / (nLayer G : ℝ) with hwdef
    have hwn : w * (nLayer G : ℝ) = G.L3 - G.L2 := by rw [hwdef]; field_simp
    have hi : ((i : ℝ) + 1) ≤ nLayer G := by
      have : ((i : Int) + 1) ≤ nLayer G := by omega
      exact_mod_cast this
    cases ha : genRing G.dim (G.L2 + w * i) (G.L2 + w * (i + 1)) G.rnd fr G.nY t with
    | ub => rw [ha] at h; simp at h
    | diverge => rw [ha] at h; simp at h
    | ok a =>
      rw [ha, Res.bind_ok] at h
      cases hb : genLayers G fr k (i + 1) a.2 with
      | ub => rw [hb] at h; simp at h
      | diverge => rw [hb] at h; simp at h
      | ok b =>
        rw [hb, Res.bind_ok, Res.ok.injEq, Prod.mk.injEq] at h
        obtain ⟨h1, h2⟩ := ih (i + 1) a.2 (l := b.1) (t' := b.2) (by omega) hb
        rw [← h.1]
        refine ⟨by simp [h1], ?_⟩
        intro P hP
        rcases List.mem_cons.1 hP with rfl | hP
        · obtain ⟨g1, g2⟩ := genRing_spec _ _ (l := a.1) (t' := a.2) ha
          refine ⟨g1, fun x hx => ⟨(g2 x hx).1.mono ?_, fun hc => (g2 x hx).2 (hc.mono ?_)⟩⟩
          · have := mul_le_mul_of_nonneg_left hi hw
            linarith
          · have : (0 : ℝ) ≤ i := Nat.cast_nonneg i
            have := mul_nonneg hw this
            linarith
        · exact h2 P hP

/-! ## The kernel matrix -/

/-- One thread, or scalar kernels: the program computes the kernel matrix. -/
theorem evalOMP_spec {K : Type} [CommRing K] (kern : (Nat → K) → (Nat → K) → Nat → Nat → K) (kdim : Nat) (hk : 0 < kdim) (p0 : Nat → Nat → K) (n0 : Nat) (p1 : Nat → Nat → K)
    (n1 nThread : Nat) (ht : 1 ≤ nThread) (hkt : kdim = 1 ∨ nThread = 1) (ord : List Nat) (ho : ord.Perm (List.range nThread)) (junk : Nat → Nat → K) :
    ∀ r < n0 * kdim, ∀ c < n1 * kdim, evalOMP kern kdim p0 n0 p1 n1 nThread ord junk r c = kmat kern kdim p0 p1 r c := by
  intro r hr c hc
  have hblk : ∀ tid < nThread, ∃ b, calcBlockSposLen n0 nThread tid = some b ∧ 0 ≤ b.spos ∧ 0 ≤ b.len ∧ b.spos + b.len ≤ n0 ∧ (nThread = 1 → b.spos = 0) := by
    intro tid htid
    obtain ⟨f, h1, h2, _⟩ := C01_blocks_contiguous n0 nThread (by omega) (by omega)
    have := h1 tid (by omega) (by omega)
    obtain ⟨a1, a2, a3⟩ := C01_block_in_range n0 nThread tid (by omega) (by omega) (by omega) _ this
    refine ⟨_, this, a1, a2, a3, fun h => ?_⟩
    have : tid = 0 := by omega
    subst this
    exact h2
  have key : ∀ (l : List Nat) (M : Nat → Nat → K), (∀ tid ∈ l, tid < nThread) →
      (M r c = kmat kern kdim p0 p1 r c ∨ ∃ tid ∈ l, ∃ b, calcBlockSposLen n0 nThread tid = some b ∧ b.Mem (r / kdim : Nat)) →
      l.foldl (evalThread kern kdim p0 n0 p1 n1 nThread) M r c = kmat kern kdim p0 p1 r c := by
    intro l
    induction l with
    | nil => intro M _ h; rcases h with h | ⟨t, ht, _⟩; exacts [h, absurd ht (by simp)]
    | cons x l ih =>
      intro M hl h
      obtain ⟨b, hb, b1, b2, b3, b4⟩ := hblk x (hl x (by simp))
      rw [List.foldl_cons]
      refine ih _ (fun t ht => hl t (List.mem_cons_of_mem _ ht)) ?_
      unfold evalThread
      rw [hb]
      dsimp only
      by_cases hin : b.spos.toNat ≤ r ∧ r < b.spos.toNat + b.len.toNat * kdim ∧ c < n1 * kdim
      · left
        rw [if_pos hin]
        unfold kmat
        rcases hkt with h1 | h1
        · subst h1
          simp only [Nat.div_one, Nat.mod_one]
          congr 2
          omega
        · have := b4 h1
          rw [this]
          simp
      · rw [if_neg hin]
        rcases h with h | ⟨t, htm, b', hb', hm⟩
        · exact Or.inl h
        · rcases List.mem_cons.1 htm with rfl | htm
          · exfalso
            rw [hb] at hb'
            cases hb'
            obtain ⟨m1, m2⟩ := hm
            apply hin
            rcases hkt with h1 | h1
            · subst h1
              rw [Nat.div_one] at m1 m2
              refine ⟨by omega, by omega, hc⟩
            · have hs := b4 h1
              rw [hs] at m2 ⊢
              refine ⟨by simp, ?_, hc⟩
              have h3 : r / kdim < b.len.toNat := by omega
              have := (Nat.div_lt_iff_lt_mul hk).1 h3
              simpa using this
          · exact Or.inr ⟨t, htm, b', hb', hm⟩
  unfold evalOMP
  refine key ord junk (fun t ht => List.mem_range.1 (ho.mem_iff.1 ht)) (Or.inr ?_)
  have hrd : r / kdim < n0 := (Nat.div_lt_iff_lt_mul hk).2 hr
  obtain ⟨i, ⟨i1, i2, b, hb, hm⟩, _⟩ := (C01_blocks_tile n0 nThread (by omega) (by omega) (r / kdim : Nat)).1 ⟨Int.natCast_nonneg _, by exact_mod_cast hrd⟩
  obtain ⟨tid, rfl⟩ : ∃ tid : Nat, (tid : Int) = i := ⟨i.toNat, by omega⟩
  exact ⟨tid, ho.mem_iff.2 (List.mem_range.2 (by omega)), b, hb, hm⟩

/-! ## The ID without `U` -/

theorem id_false_of_true {O : Ops ℝ} {sz nrow ncol kdim : Nat} {st : Stop ℝ} {A : Nat → Nat → ℝ} {E : IDEnv ℝ} {r : ((Nat → Nat) × Nat) × H2Pack.Dense.Mat ℝ}
    {fuel : Nat} (h : idCompress O sz nrow ncol kdim st A true E fuel = .ok r) :
    ∃ r' : ((Nat → Nat) × Nat) × H2Pack.Dense.Mat ℝ, r'.1 = r.1 ∧ idCompress O sz nrow ncol kdim st A false E fuel = .ok r' := by
  unfold idCompress at h ⊢
  cases hq : idQR O sz ncol nrow kdim st A E fuel with
  | ub => rw [hq] at h; simp at h
  | diverge => rw [hq] at h; simp at h
  | ok q =>
    rw [hq, Res.bind_ok] at h
    rw [Res.bind_ok]
    dsimp only at h ⊢
    cases hs : H2Pack.CSR.qsort (κ := Int) (ν := Int) nrow fuel ⟨fun k => q.2.1 k.toNat, fun k => k⟩ 0 ((q.1 : Int) - 1) with
    | ub => rw [hs] at h; simp at h
    | diverge => rw [hs] at h; simp at h
    | ok kv =>
      rw [hs, Res.bind_ok] at h
      rw [Res.bind_ok]
      by_cases h0 : q.1 = 0
      · rw [if_pos h0, Res.bind_ok, Res.ok.injEq] at h
        rw [if_pos h0, Res.bind_ok]
        exact ⟨_, by rw [← h], rfl⟩
      · rw [if_neg h0, if_pos rfl] at h
        rw [if_neg h0, if_neg (by simp), Res.bind_ok]
        refine ⟨_, ?_, rfl⟩
        cases hx : trsm O q.1 (nrow - q.1) q.1 q.2.2 with
        | ub => rw [hx] at h; simp at h
        | diverge => rw [hx] at h; simp at h
        | ok X =>
          rw [hx, Res.bind_ok] at h
          revert h
          generalize H2Pack.Dense.permuteRows _ _ _ = W
          intro h
          cases W with
          | ub => simp at h
          | diverge => simp at h
          | ok W => rw [Res.bind_ok, Res.ok.injEq] at h; rw [← h]

/-- The ID without `U` fails, or it returns the selection that the ID with `U` returns. -/
theorem id_false {e f t : ℝ} (sz nrow ncol kdim : Nat) (hk : 0 < kdim) (hn : 1 ≤ nrow) (st : Stop ℝ) (A : Nat → Nat → ℝ) (E : IDEnv ℝ) :
    Fails (fun fuel => idCompress (realOps e f t) sz nrow ncol kdim st A false E fuel) ∨
    ∃ J len U, Returns (fun fuel => idCompress (realOps e f t) sz nrow ncol kdim st A true E fuel) ((J, len), U) ∧
      ∃ F, ∀ fuel ≥ F, ∃ r' : ((Nat → Nat) × Nat) × H2Pack.Dense.Mat ℝ, r'.1 = (J, len) ∧ idCompress (realOps e f t) sz nrow ncol kdim st A false E fuel = .ok r' := by
  have hfine := idQR_fine (tot := False) (O := realOps e f t) (fun a b => ⟨by show (if b = 0 then _ else _) ≠ _; split <;> simp, False.elim⟩) sz ncol nrow kdim st A E (show nrow < nrow + 1 by omega)
  cases hq : idQR (realOps e f t) sz ncol nrow kdim st A E (nrow + 1) with
  | ub =>
    left
    refine ⟨nrow + 1, fun fuel hf => ?_⟩
    dsimp only
    unfold idCompress
    rw [idQR_fuel sz ncol nrow kdim st A E (show nrow < fuel by omega) (show nrow < nrow + 1 by omega), hq, Res.bind_ub]
  | diverge => exact absurd hq hfine.1
  | ok q =>
    right
    obtain ⟨p, hp⟩ : ∃ p, idQR0 (realOps e f t) sz ncol nrow kdim st A E (nrow + 1) = .ok p := by
      rw [idQR_of] at hq
      cases hp : idQR0 (realOps e f t) sz ncol nrow kdim st A E (nrow + 1) with
      | ub => rw [hp] at hq; simp at hq
      | diverge => rw [hp] at hq; simp at hq
      | ok p => exact ⟨p, rfl⟩
    obtain ⟨J, len, U, F, hF⟩ := returns_of_qr (e := e) (f := f) (t := t) hk hn (q0 := p) hp
    refine ⟨J, len, U, ⟨F, hF⟩, F, fun fuel hf => ?_⟩
    obtain ⟨r', h1, h2⟩ := id_false_of_true (hF fuel hf)
    exact ⟨r', h1, h2⟩

end H2Pack.Proxy
