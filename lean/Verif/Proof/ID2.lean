import Verif.Proof.ID

/-!
# Interpolative decomposition: outcomes and selection
-/

namespace H2Pack.ID

variable {K : Type}

/-- No endless run and, under `tot`, no undefined behaviour. -/
def Fine {α : Type} (tot : Prop) (x : Res α) : Prop := x ≠ .diverge ∧ (tot → x ≠ .ub)

theorem Fine.ok {α : Type} {tot : Prop} (a : α) : Fine tot (Res.ok a) := ⟨by simp, by simp⟩

theorem Fine.bind {α β : Type} {tot : Prop} {x : Res α} {g : α → Res β} (hx : Fine tot x) (hg : ∀ a, x = .ok a → Fine tot (g a)) : Fine tot (x >>= g) := by
  cases h : x with
  | ok a => rw [Res.bind_ok]; exact hg a h
  | ub => rw [Res.bind_ub]; exact ⟨by simp, fun ht => absurd h (hx.2 ht)⟩
  | diverge => exact absurd h hx.1

variable {tot : Prop} {O : Ops K}

theorem house_fine (hO : ∀ a b, Fine tot (O.div a b)) (nrow i : Nat) (c : Nat → K) : Fine tot (house O nrow i c) := by
  unfold house
  exact (hO _ _).bind fun _ _ => Fine.ok _

theorem qrStep_fine (hO : ∀ a b, Fine tot (O.div a b)) (nrow ncol : Nat) (stop : K) (i : Nat) (s : QRSt K) : Fine tot (qrStep O nrow ncol stop i s) := by
  unfold qrStep
  exact (house_fine hO _ _ _).bind fun _ _ => Fine.ok _

theorem qrLoop_fine (hO : ∀ a b, Fine tot (O.div a b)) (nrow ncol : Nat) (stop : K) (sr : Int) : ∀ n i s, Fine tot (qrLoop O nrow ncol stop sr n i s) := by
  intro n
  induction n with
  | zero => intro i s; exact Fine.ok _
  | succ n ih =>
    intro i s
    rw [qrLoop]
    split
    · exact Fine.ok _
    · exact (qrStep_fine hO _ _ _ _ _).bind fun _ _ => ih _ _

theorem panel_fine (hO : ∀ a b, Fine tot (O.div a b)) (nrow kdim b : Nat) : ∀ n blk R V, Fine tot (panel O nrow kdim b n blk R V) := by
  intro n
  induction n with
  | zero => intro blk R V; exact Fine.ok _
  | succ n ih =>
    intro blk R V
    rw [panel]
    exact (house_fine hO _ _ _).bind fun _ _ => ih _ _ _

theorem qrkStep_fine (hO : ∀ a b, Fine tot (O.div a b)) (sz nrow ncol kdim : Nat) (stop : K) (V0 : Nat → Nat → K) {fuel : Nat} (hf : ncol < fuel) (i : Nat) (s : QRSt K) :
    Fine tot (qrkStep O sz nrow ncol kdim stop V0 fuel i s) := by
  unfold qrkStep
  apply (panel_fine hO _ _ _ _ _ _ _).bind
  intro q _
  dsimp only
  rw [chunks_eq O _ _ _ _ _ _ _ _ fuel 0 _ (by omega), Res.bind_ok]
  exact Fine.ok _

theorem qrkStep_fuel (sz nrow ncol kdim : Nat) (stop : K) (V0 : Nat → Nat → K) {fuel fuel' : Nat} (hf : ncol < fuel) (hf' : ncol < fuel') (i : Nat) (s : QRSt K) :
    qrkStep O sz nrow ncol kdim stop V0 fuel i s = qrkStep O sz nrow ncol kdim stop V0 fuel' i s := by
  unfold qrkStep
  dsimp only
  congr 1; funext q
  rw [chunks_eq O _ _ _ _ _ _ _ _ fuel 0 _ (by omega), chunks_eq O _ _ _ _ _ _ _ _ fuel' 0 _ (by omega)]

theorem qrkLoop_fine (hO : ∀ a b, Fine tot (O.div a b)) (sz nrow ncol kdim : Nat) (stop : K) (sr : Int) (V0 : Nat → Nat → K) {fuel : Nat} (hf : ncol < fuel) :
    ∀ n i s, Fine tot (qrkLoop O sz nrow ncol kdim stop sr V0 fuel n i s) := by
  intro n
  induction n with
  | zero => intro i s; exact Fine.ok _
  | succ n ih =>
    intro i s
    rw [qrkLoop]
    split
    · exact Fine.ok _
    · exact (qrkStep_fine hO _ _ _ _ _ _ hf _ _).bind fun _ _ => ih _ _

theorem qrkLoop_fuel (sz nrow ncol kdim : Nat) (stop : K) (sr : Int) (V0 : Nat → Nat → K) {fuel fuel' : Nat} (hf : ncol < fuel) (hf' : ncol < fuel') :
    ∀ n i s, qrkLoop O sz nrow ncol kdim stop sr V0 fuel n i s = qrkLoop O sz nrow ncol kdim stop sr V0 fuel' n i s := by
  intro n
  induction n with
  | zero => intro i s; rfl
  | succ n ih =>
    intro i s
    rw [qrkLoop, qrkLoop, qrkStep_fuel _ _ _ _ _ _ hf hf']
    split
    · rfl
    · congr 1; funext s'; exact ih _ _

theorem idQR_fine (hO : ∀ a b, Fine tot (O.div a b)) (sz nrow ncol kdim : Nat) (st : Stop K) (R : Nat → Nat → K) (E : IDEnv K) {fuel : Nat} (hf : ncol < fuel) :
    Fine tot (idQR O sz nrow ncol kdim st R E fuel) := by
  have key : Fine tot (if kdim = 1 then partialPivotQR O nrow ncol (st.parse O nrow ncol kdim).1 (st.parse O nrow ncol kdim).2.1 (st.parse O nrow ncol kdim).2.2 R E.p0 E.cn0
    else partialPivotQRk O sz nrow ncol kdim (st.parse O nrow ncol kdim).1 (st.parse O nrow ncol kdim).2.1 (st.parse O nrow ncol kdim).2.2 R E.p0 E.cn0 E.V0 fuel) := by
    split
    · unfold partialPivotQR
      exact (qrLoop_fine hO _ _ _ _ _ _ _).bind fun _ _ => Fine.ok _
    · unfold partialPivotQRk
      exact (qrkLoop_fine hO _ _ _ _ _ _ _ hf _ _ _).bind fun _ _ => Fine.ok _
  unfold idQR
  dsimp only
  split at key
  · rename_i h
    rw [if_pos h]
    apply key.bind
    intro a _
    split <;> exact Fine.ok _
  · rename_i h
    rw [if_neg h]
    apply key.bind
    intro a _
    split <;> exact Fine.ok _

theorem idQR_fuel (sz nrow ncol kdim : Nat) (st : Stop K) (R : Nat → Nat → K) (E : IDEnv K) {fuel fuel' : Nat} (hf : ncol < fuel) (hf' : ncol < fuel') :
    idQR O sz nrow ncol kdim st R E fuel = idQR O sz nrow ncol kdim st R E fuel' := by
  unfold idQR partialPivotQRk
  dsimp only
  rw [qrkLoop_fuel _ _ _ _ _ _ _ hf hf']

/-- The result of the QR step before it is reset for rank 0. -/
def idQR0 (O : Ops K) (sz nrow ncol kdim : Nat) (st : Stop K) (R : Nat → Nat → K) (E : IDEnv K) (fuel : Nat) : Res (Nat × (Nat → Nat) × (Nat → Nat → K)) :=
  if kdim = 1 then partialPivotQR O nrow ncol (st.parse O nrow ncol kdim).1 (st.parse O nrow ncol kdim).2.1 (st.parse O nrow ncol kdim).2.2 R E.p0 E.cn0
    else partialPivotQRk O sz nrow ncol kdim (st.parse O nrow ncol kdim).1 (st.parse O nrow ncol kdim).2.1 (st.parse O nrow ncol kdim).2.2 R E.p0 E.cn0 E.V0 fuel

theorem idQR_of (sz nrow ncol kdim : Nat) (st : Stop K) (R : Nat → Nat → K) (E : IDEnv K) (fuel : Nat) :
    idQR O sz nrow ncol kdim st R E fuel = idQR0 O sz nrow ncol kdim st R E fuel >>= fun r =>
      if r.1 = 0 then .ok (0, fun j => if j < ncol then j else r.2.1 j, r.2.2) else .ok r := by
  unfold idQR idQR0
  dsimp only
  split <;> rfl

theorem BlkPerm.one {n : Nat} {p : Nat → Nat} (h : IsPerm n p) : BlkPerm 1 n p := by
  refine ⟨p, by rwa [Nat.div_one], ?_, ?_⟩
  · intro j _ k hk
    obtain rfl : k = 0 := by omega
    simp
  · intro t h1 h2
    rw [Nat.div_one, Nat.mul_one] at h1; omega

theorem BlkPerm.id {kdim n : Nat} {p : Nat → Nat} (h : ∀ j < n, p j = j) : BlkPerm kdim n p := by
  refine ⟨fun j => j, IsPerm.id _, ?_, ?_⟩
  · intro j hj k hk
    have h1 := Nat.mul_le_mul_right kdim (show j + 1 ≤ n / kdim by omega)
    have h2 := Nat.div_mul_le_self n kdim
    rw [Nat.add_mul] at h1
    exact h _ (by omega)
  · intro t _ ht; exact h t ht

theorem idQR0_perm {sz nrow ncol kdim : Nat} (hk : 0 < kdim) {st : Stop K} {R : Nat → Nat → K} {E : IDEnv K} {fuel : Nat} {q : Nat × (Nat → Nat) × (Nat → Nat → K)}
    (h : idQR0 O sz nrow ncol kdim st R E fuel = .ok q) :
    q.1 ≤ nrow ∧ q.1 ≤ ncol ∧ (q.1 : Int) ≤ max 0 (st.parse O nrow ncol kdim).1 ∧ kdim ∣ q.1 ∧ BlkPerm kdim ncol q.2.1 := by
  unfold idQR0 at h
  by_cases h1 : kdim = 1
  · subst h1
    rw [if_pos rfl] at h
    obtain ⟨a, b, c, d⟩ := partialPivotQR_perm _ _ _ _ _ _ _ _ _ _ h
    exact ⟨a, b, c, one_dvd _, BlkPerm.one d⟩
  · rw [if_neg h1] at h
    exact partialPivotQRk_perm _ _ _ _ _ hk _ _ _ _ _ _ _ _ _ h

theorem idQR_perm {sz nrow ncol kdim : Nat} (hk : 0 < kdim) {st : Stop K} {R : Nat → Nat → K} {E : IDEnv K} {fuel : Nat} {q : Nat × (Nat → Nat) × (Nat → Nat → K)}
    (h : idQR O sz nrow ncol kdim st R E fuel = .ok q) :
    q.1 ≤ nrow ∧ q.1 ≤ ncol ∧ (q.1 : Int) ≤ max 0 (st.parse O nrow ncol kdim).1 ∧ kdim ∣ q.1 ∧ BlkPerm kdim ncol q.2.1 := by
  rw [idQR_of] at h
  cases hq : idQR0 O sz nrow ncol kdim st R E fuel with
  | ok r =>
    rw [hq, Res.bind_ok] at h
    obtain ⟨a, b, c, d, p⟩ := idQR0_perm hk hq
    by_cases h0 : r.1 = 0
    · rw [if_pos h0, Res.ok.injEq] at h
      subst h
      dsimp only
      exact ⟨Nat.zero_le _, Nat.zero_le _, by simp, dvd_zero _, BlkPerm.id fun j hj => if_pos hj⟩
    · rw [if_neg h0, Res.ok.injEq] at h
      subst h
      exact ⟨a, b, c, d, p⟩
  | ub => rw [hq] at h; simp at h
  | diverge => rw [hq] at h; simp at h

/-- What is known about a result of `idCompress` in terms of the QR result `q`, the sorted selection `J`, its order `i0` and the
solution `X` of the triangular systems. -/
structure Parts (O : Ops K) (nrow kdim : Nat) (wantU : Bool) (q : Nat × (Nat → Nat) × (Nat → Nat → K)) (J i0 : Nat → Nat) (X : Nat → Nat → K)
    (res : ((Nat → Nat) × Nat) × H2Pack.Dense.Mat K) : Prop where
  sorted : Sorted nrow q.1 q.2.1 J i0
  grp : res.1 = groupJ kdim J q.1
  solve : wantU = true → q.1 ≠ 0 → trsm O q.1 (nrow - q.1) q.1 q.2.2 = .ok X
  rows : wantU = true → res.2.nrow = nrow
  cols : wantU = true → res.2.ncol = q.1
  wf : wantU = true → q.1 ≠ 0 → res.2.WF
  low : wantU = true → ∀ t < q.1, ∀ j < q.1, res.2.entry (J t) j = if t = j then O.one else O.zero
  high : wantU = true → ∀ a, q.1 ≤ a → a < nrow → ∀ j < q.1, res.2.entry (q.2.1 a) j = X a (i0 j)

theorem idCompress_of_qr {sz nrow ncol kdim : Nat} (hk : 0 < kdim) (hn : 1 ≤ nrow) {st : Stop K} {A : Nat → Nat → K} {wantU : Bool} {E : IDEnv K}
    {q : Nat × (Nat → Nat) × (Nat → Nat → K)} (hq : idQR O sz ncol nrow kdim st A E (nrow + 1) = .ok q) :
    (wantU = true ∧ q.1 ≠ 0 ∧ trsm O q.1 (nrow - q.1) q.1 q.2.2 = .ub ∧ Fails (fun fuel => idCompress O sz nrow ncol kdim st A wantU E fuel)) ∨
    (wantU = true ∧ q.1 ≠ 0 ∧ trsm O q.1 (nrow - q.1) q.1 q.2.2 = .diverge) ∨
    ∃ J i0 X res, Returns (fun fuel => idCompress O sz nrow ncol kdim st A wantU E fuel) res ∧ Parts O nrow kdim wantU q J i0 X res := by
  obtain ⟨hr1, hr2, hr3, hr4, hblk⟩ := idQR_perm hk hq
  have hp := hblk.isPerm hk
  obtain ⟨kv, ⟨F, hF⟩, hs⟩ := sort_spec hn hr2 hp
  have hrun : ∀ fuel, F ≤ fuel → nrow + 1 ≤ fuel → idCompress O sz nrow ncol kdim st A wantU E fuel =
      (if q.1 = 0 then Res.ok ⟨nrow, 0, 0, 0, E.u0⟩
        else if wantU then do
          let X ← trsm O q.1 (nrow - q.1) q.1 q.2.2
          H2Pack.Dense.permuteRows ⟨nrow, q.1, q.1, nrow * q.1, formU O nrow q.1 (fun i : Nat => (kv.val i).toNat) X E.u0⟩
            ((List.range nrow).map fun i => invPerm nrow (fun i : Nat => (kv.val i).toNat) E.i1 (invPerm nrow q.2.1 E.p0inv i)) E.u1
        else Res.ok ⟨0, 0, 0, 0, E.u0⟩) >>= fun U => .ok (groupJ kdim (fun i : Nat => (kv.key i).toNat) q.1, U) := by
    intro fuel h1 h2
    unfold idCompress
    rw [idQR_fuel sz ncol nrow kdim st A E (show nrow < fuel by omega) (show nrow < nrow + 1 by omega), hq, Res.bind_ok]
    have := hF fuel h1
    dsimp only at this ⊢
    rw [this, Res.bind_ok]
    split
    · rfl
    · split
      · cases trsm O q.1 (nrow - q.1) q.1 q.2.2 <;> rfl
      · rfl
  by_cases h0 : q.1 = 0
  · right; right
    refine ⟨fun i : Nat => (kv.key i).toNat, fun i : Nat => (kv.val i).toNat, fun _ _ => O.zero, (groupJ kdim (fun i : Nat => (kv.key i).toNat) q.1, ⟨nrow, 0, 0, 0, E.u0⟩), ⟨max F (nrow + 1), fun fuel hf => ?_⟩, ?_⟩
    · dsimp only
      rw [hrun fuel (by omega) (by omega), if_pos h0, Res.bind_ok]
    · exact ⟨hs, rfl, fun _ h => absurd h0 h, fun _ => rfl, fun _ => h0.symm, fun _ h => absurd h0 h, fun _ t ht => by omega, fun _ a _ _ j hj => by omega⟩
  · cases wantU with
    | false =>
      right; right
      refine ⟨fun i : Nat => (kv.key i).toNat, fun i : Nat => (kv.val i).toNat, fun _ _ => O.zero, (groupJ kdim (fun i : Nat => (kv.key i).toNat) q.1, ⟨0, 0, 0, 0, E.u0⟩), ⟨max F (nrow + 1), fun fuel hf => ?_⟩, ?_⟩
      · dsimp only
        rw [hrun fuel (by omega) (by omega), if_neg h0, if_neg (by simp), Res.bind_ok]
      · exact ⟨hs, rfl, fun h => by simp at h, fun h => by simp at h, fun h => by simp at h, fun h => by simp at h, fun h => by simp at h, fun h => by simp at h⟩
    | true =>
      cases ht : trsm O q.1 (nrow - q.1) q.1 q.2.2 with
      | ub =>
        left
        refine ⟨rfl, h0, rfl, max F (nrow + 1), fun fuel hf => ?_⟩
        dsimp only
        rw [hrun fuel (by omega) (by omega), if_neg h0, if_pos rfl, ht]; rfl
      | diverge => right; left; exact ⟨rfl, h0, rfl⟩
      | ok X =>
        right; right
        set i0 : Nat → Nat := fun i : Nat => (kv.val i).toNat with hi0
        set J : Nat → Nat := fun i : Nat => (kv.key i).toNat with hJ
        have hp1 : ∀ i < nrow, invPerm nrow i0 E.i1 (invPerm nrow q.2.1 E.p0inv i) < nrow := fun i hi =>
          (invPerm_lt hs.perm _ (invPerm_lt hp _ hi).1).1
        obtain ⟨U, hU, hwf, hur, huc, hent⟩ := H2Pack.Dense.C36_permute_rows
          (⟨nrow, q.1, q.1, nrow * q.1, formU O nrow q.1 i0 X E.u0⟩ : H2Pack.Dense.Mat K) ⟨le_refl _, le_refl _⟩
          ((List.range nrow).map fun i => invPerm nrow i0 E.i1 (invPerm nrow q.2.1 E.p0inv i)) (by simp)
          (by intro r hr; rw [List.mem_map] at hr; obtain ⟨i, hi, rfl⟩ := hr; exact hp1 i (List.mem_range.1 hi)) E.u1
        have hent' : ∀ i < nrow, ∀ j < q.1, U.entry i j = formU O nrow q.1 i0 X E.u0 (invPerm nrow i0 E.i1 (invPerm nrow q.2.1 E.p0inv i) * q.1 + j) := by
          intro i hi j hj
          rw [hent i j (by simpa using hi) hj]
          rw [List.getElem_map, List.getElem_range]; rfl
        refine ⟨J, i0, X, (groupJ kdim J q.1, U), ⟨max F (nrow + 1), fun fuel hf => ?_⟩, ?_⟩
        · dsimp only
          rw [hrun fuel (by omega) (by omega), if_neg h0, if_pos rfl, ht, Res.bind_ok, hU, Res.bind_ok]
        · refine ⟨hs, rfl, fun _ _ => ht, fun _ => hur, fun _ => huc, fun _ _ => hwf, ?_, ?_⟩
          · intro _ t ht' j hj
            have hlt := hs.low t ht'
            have e1 : J t < nrow := by rw [hs.key t (by omega)]; exact hp.lt _ (by omega)
            rw [hent' _ e1 j hj, hs.key t (by omega), invPerm_spec hp.inj _ (show i0 t < nrow by omega), invPerm_spec hs.perm.inj _ (show t < nrow by omega)]
            exact formU_low O hr2 i0 X E.u0 ht' hj
          · intro _ a ha ha' j hj
            rw [hent' _ (hp.lt a ha') j hj, invPerm_spec hp.inj _ ha']
            have : invPerm nrow i0 E.i1 a = a := by
              conv_lhs => rw [← hs.high a ha ha']
              exact invPerm_spec hs.perm.inj _ ha'
            rw [this]
            exact formU_high O i0 X E.u0 ha ha' hj

/-- The selection in groups. -/
theorem Parts.skel {nrow kdim : Nat} (hk : 0 < kdim) {wantU : Bool} {q : Nat × (Nat → Nat) × (Nat → Nat → K)} {J i0 : Nat → Nat} {X : Nat → Nat → K}
    {res : ((Nat → Nat) × Nat) × H2Pack.Dense.Mat K} (h : Parts O nrow kdim wantU q J i0 X res) (hr : q.1 ≤ nrow) (hd : kdim ∣ q.1) (hb : BlkPerm kdim nrow q.2.1) :
    res.1.2 * kdim = q.1 ∧ (∀ i < q.1, skel kdim res.1.1 i = J i) ∧ (∀ a b, a < b → b < res.1.2 → res.1.1 a < res.1.1 b) ∧ ∀ i < res.1.2, res.1.1 i < nrow / kdim := by
  have hlen : res.1.2 = q.1 / kdim := by
    rw [h.grp]; unfold groupJ
    split
    · rfl
    · obtain rfl : kdim = 1 := by omega
      simp
  have hmul : q.1 / kdim * kdim = q.1 := Nat.div_mul_cancel hd
  have hp := hb.isPerm hk
  obtain ⟨σ, b1, b2, b3⟩ := hb
  have hle : nrow / kdim * kdim ≤ nrow := Nat.div_mul_le_self _ _
  have hqd : q.1 / kdim ≤ nrow / kdim := Nat.div_le_div_right hr
  have hin : ∀ u < q.1, ∃ j < q.1 / kdim, q.2.1 u = σ j * kdim + u % kdim ∧ j = u / kdim := by
    intro u hu
    have h1 : u / kdim < q.1 / kdim := by rw [Nat.div_lt_iff_lt_mul hk, hmul]; exact hu
    refine ⟨u / kdim, h1, ?_, rfl⟩
    have := b2 (u / kdim) (by omega) (u % kdim) (Nat.mod_lt _ hk)
    rwa [show u / kdim * kdim + u % kdim = u by
      have := Nat.div_add_mod u kdim
      rw [Nat.mul_comm] at this; omega] at this
  have hdm : ∀ g m, m < kdim → (g * kdim + m) / kdim = g := by
    intro g m hm
    rw [Nat.mul_comm, Nat.mul_add_div hk, Nat.div_eq_of_lt hm, Nat.add_zero]
  have hblk : ∀ u < q.1, ∀ w, w / kdim = J u / kdim → ∃ v < q.1, J v = w := by
    intro u hu w hw
    rw [h.sorted.key u (by omega)] at hw
    obtain ⟨j, hj, e1, _⟩ := hin (i0 u) (h.sorted.low u hu)
    rw [e1, hdm _ _ (Nat.mod_lt _ hk)] at hw
    have hwm := Nat.mod_lt w hk
    have hw2 : w = σ j * kdim + w % kdim := by
      have := Nat.div_add_mod w kdim
      rw [hw, Nat.mul_comm] at this; omega
    have hlt : j * kdim + w % kdim < q.1 := by
      have := Nat.mul_le_mul_right kdim (show j + 1 ≤ q.1 / kdim by omega)
      rw [hmul, Nat.add_mul] at this; omega
    obtain ⟨v, hv, hv'⟩ := h.sorted.perm.surj (show j * kdim + w % kdim < nrow by omega)
    have hvlt : v < q.1 := by
      by_contra hn
      have := h.sorted.high v (by omega) hv
      omega
    refine ⟨v, hvlt, ?_⟩
    rw [h.sorted.key v hv, hv', b2 j (by omega) _ hwm]; exact hw2.symm
  have hJ' : ∀ i < q.1 / kdim, res.1.1 i = J (i * kdim) / kdim := by
    intro i hi
    rw [h.grp]; exact (groupJ_at hk J q.1 hi).1
  have hsk : ∀ i < q.1, ID.skel kdim res.1.1 i = J i := by
    intro i hi
    have h1 : i / kdim < q.1 / kdim := by rw [Nat.div_lt_iff_lt_mul hk, hmul]; exact hi
    unfold ID.skel
    rw [hJ' _ h1]
    exact (groups_skel hk hd h.sorted.mono hblk hi).symm
  have hJm : ∀ i < q.1 / kdim, i * kdim < q.1 ∧ J (i * kdim) = res.1.1 i * kdim := by
    intro i hi
    have h1 : i * kdim < q.1 := by
      have := Nat.mul_le_mul_right kdim (show i + 1 ≤ q.1 / kdim by omega)
      rw [hmul, Nat.add_mul] at this; omega
    refine ⟨h1, ?_⟩
    rw [← hsk _ h1]
    unfold ID.skel
    rw [Nat.mul_div_cancel _ hk, Nat.mul_mod_left, Nat.add_zero]
  refine ⟨by rw [hlen, hmul], hsk, ?_, ?_⟩
  · intro a b hab hb'
    rw [hlen] at hb'
    have h1 := hJm a (by omega)
    have h2 := hJm b hb'
    have h3 := h.sorted.mono (a * kdim) (b * kdim) (Nat.mul_lt_mul_of_pos_right hab hk) h2.1
    rw [h1.2, h2.2] at h3
    exact Nat.lt_of_mul_lt_mul_right h3
  · intro i hi
    rw [hlen] at hi
    obtain ⟨h1, h2⟩ := hJm i hi
    have h3 := h.sorted.low _ h1
    obtain ⟨j, hj, e1, _⟩ := hin _ h3
    rw [h.sorted.key _ (by omega), e1] at h2
    have h4 := b1.lt j (by omega)
    have h5 : res.1.1 i * kdim < nrow / kdim * kdim := by
      rw [← h2]
      have h6 := Nat.mul_le_mul_right kdim (show σ j + 1 ≤ nrow / kdim by omega)
      have h7 := Nat.mod_lt (i0 (i * kdim)) hk
      rw [Nat.add_mul] at h6; omega
    exact Nat.lt_of_mul_lt_mul_right h5

end H2Pack.ID
