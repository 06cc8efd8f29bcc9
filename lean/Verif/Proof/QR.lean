import Verif.Spec.ID

/-!
# Partial pivoting QR: rank and permutation, for any arithmetic
-/

namespace H2Pack.ID
variable {K : Type}

theorem IsPerm.id (n : Nat) : IsPerm n (fun j => j) := ⟨fun _ h => h, fun _ _ _ _ h => h⟩

theorem IsPerm.congr {n : Nat} {p q : Nat → Nat} (h : IsPerm n p) (e : ∀ j < n, q j = p j) : IsPerm n q :=
  ⟨fun j hj => by rw [e j hj]; exact h.lt j hj, fun j hj k hk he => by rw [e j hj, e k hk] at he; exact h.inj j hj k hk he⟩

theorem IsPerm.comp {n : Nat} {p q : Nat → Nat} (h : IsPerm n p) (h' : IsPerm n q) : IsPerm n (fun j => p (q j)) :=
  ⟨fun j hj => h.lt _ (h'.lt j hj), fun j hj k hk he => h'.inj j hj k hk (h.inj _ (h'.lt j hj) _ (h'.lt k hk) he)⟩

theorem swap_eq {α : Type} (f : Nat → α) (a b t : Nat) : swap f a b t = f (swap (fun j => j) a b t) := by
  unfold swap; split
  · rfl
  · split <;> rfl

theorem isPerm_swap_id {n a b : Nat} (ha : a < n) (hb : b < n) : IsPerm n (swap (fun j => j) a b) := by
  constructor
  · intro j hj; unfold swap; split
    · exact hb
    · split
      · exact ha
      · exact hj
  · intro j hj k hk; unfold swap; beta_reduce
    split <;> split <;> (try split) <;> (try split) <;> intro h <;> omega

theorem IsPerm.swap {n : Nat} {p : Nat → Nat} (h : IsPerm n p) {a b : Nat} (ha : a < n) (hb : b < n) : IsPerm n (swap p a b) :=
  (h.comp (isPerm_swap_id ha hb)).congr fun j _ => swap_eq p a b j

theorem findPivot_mem (O : Ops K) (cn : Nat → K) {lo hi : Nat} (h : lo < hi) :
    lo ≤ (findPivot O cn lo hi).1 ∧ (findPivot O cn lo hi).1 < hi := by
  unfold findPivot
  have key : ∀ (l : List Nat) (s : Nat × K), (∀ j ∈ l, lo ≤ j ∧ j < hi) → lo ≤ s.1 ∧ s.1 < hi →
      lo ≤ (l.foldl (fun s j => if O.lt s.2 (cn j) then (j, cn j) else s) s).1 ∧
        (l.foldl (fun s j => if O.lt s.2 (cn j) then (j, cn j) else s) s).1 < hi := by
    intro l
    induction l with
    | nil => intro s _ h; exact h
    | cons x xs ih =>
      intro s hl hs
      refine ih _ (fun j hj => hl j (List.mem_cons_of_mem _ hj)) ?_
      beta_reduce
      split
      · exact hl x List.mem_cons_self
      · exact hs
  refine key _ _ ?_ ⟨le_refl _, h⟩
  intro j hj
  rw [List.mem_range'_1] at hj
  omega

/-- What one step does to the permutation and the pivot. -/
theorem qrStep_perm (O : Ops K) (nrow ncol : Nat) (stop : K) (i : Nat) (s s' : QRSt K) (h : qrStep O nrow ncol stop i s = .ok s')
    (hi : i < ncol) (hp : IsPerm ncol s.p) (hv : i ≤ s.pivot ∧ s.pivot < ncol) :
    IsPerm ncol s'.p ∧ (i + 1 < ncol → i + 1 ≤ s'.pivot ∧ s'.pivot < ncol) := by
  unfold qrStep at h
  set s1 := if i ≠ s.pivot then { s with p := swap s.p i s.pivot, cn := swap s.cn i s.pivot, R := swap s.R i s.pivot } else s with hs1
  have hp1 : IsPerm ncol s1.p := by
    rw [hs1]; split
    · exact hp.swap hi hv.2
    · exact hp
  dsimp only at h
  cases hh : house O nrow i (s1.R i) with
  | ok hv' =>
    rw [hh] at h
    simp only [Res.bind_ok, Res.ok.injEq] at h
    subst h
    exact ⟨hp1, fun hlt => findPivot_mem O _ hlt⟩
  | ub => rw [hh] at h; simp at h
  | diverge => rw [hh] at h; simp at h

theorem qrLoop_perm (O : Ops K) (nrow ncol : Nat) (stop : K) (sr : Int) : ∀ n i s r, qrLoop O nrow ncol stop sr n i s = .ok r → i + n ≤ ncol →
    IsPerm ncol s.p → (i < ncol → i ≤ s.pivot ∧ s.pivot < ncol) → (i : Int) ≤ max 0 sr →
    IsPerm ncol r.2.p ∧ r.1 ≤ i + n ∧ (n ≠ 0 → (r.1 : Int) ≤ max 0 sr) := by
  intro n
  induction n with
  | zero =>
    intro i s r h hi hp _ hs
    simp only [qrLoop, Res.ok.injEq] at h
    subst h
    exact ⟨hp, le_refl _, fun h => absurd rfl h⟩
  | succ n ih =>
    intro i s r h hi hp hv hs
    rw [qrLoop] at h
    split at h
    · next hc =>
      simp only [Res.ok.injEq] at h
      subst h
      refine ⟨hp, by dsimp only; omega, fun _ => hs⟩
    · next hc =>
      push Not at hc
      cases hq : qrStep O nrow ncol stop i s with
      | ok s' =>
        rw [hq] at h
        simp only [Res.bind_ok] at h
        obtain ⟨h1, h2⟩ := qrStep_perm O nrow ncol stop i s s' hq (by omega) hp (hv (by omega))
        obtain ⟨g1, g2, g3⟩ := ih (i + 1) s' r h (by omega) h1 h2 (by push_cast; omega)
        refine ⟨g1, by omega, fun _ => ?_⟩
        by_cases hn : n = 0
        · subst hn
          simp only [qrLoop, Res.ok.injEq] at h
          subst h
          dsimp only; push_cast; omega
        · exact g3 hn
      | ub => rw [hq] at h; simp at h
      | diverge => rw [hq] at h; simp at h

theorem partialPivotQR_perm (O : Ops K) (nrow ncol : Nat) (tolRank : Int) (tol : K) (rel : Bool) (R : Nat → Nat → K) (p0 : Nat → Nat) (cn0 : Nat → K)
    (q : Nat × (Nat → Nat) × (Nat → Nat → K)) (h : partialPivotQR O nrow ncol tolRank tol rel R p0 cn0 = .ok q) :
    q.1 ≤ nrow ∧ q.1 ≤ ncol ∧ (q.1 : Int) ≤ max 0 tolRank ∧ IsPerm ncol q.2.1 := by
  unfold partialPivotQR at h
  dsimp only at h
  set st : QRSt K := ⟨fun j => if j < ncol then j else p0 j, fun j => if j < ncol then O.nrm2 nrow (R j) else cn0 j, R, _, _⟩ with hst
  cases hl : qrLoop O nrow ncol (stopNorm O nrow tol rel (findPivot O (fun j => if j < ncol then O.nrm2 nrow (R j) else cn0 j) 0 ncol).2)
      (min ((min nrow ncol : Nat) : Int) tolRank) (min nrow ncol) 0 st with
  | ok r =>
    rw [hl] at h
    simp only [Res.bind_ok, Res.ok.injEq] at h
    obtain ⟨h1, h2, h3⟩ := qrLoop_perm O nrow ncol _ _ _ 0 st r hl (by omega)
      ((IsPerm.id ncol).congr fun j hj => by rw [hst]; dsimp only; rw [if_pos hj])
      (fun hn => by rw [hst]; exact findPivot_mem O _ hn) (by simp)
    subst h
    dsimp only
    refine ⟨by omega, by omega, ?_, h1⟩
    by_cases hz : min nrow ncol = 0
    · have : r.1 = 0 := by omega
      rw [this]; simp
    · have := h3 hz; omega
  | ub => rw [hl] at h; simp at h
  | diverge => rw [hl] at h; simp at h

/-! ## Column blocks -/

/-- Blocks of `kdim` columns are permuted as a whole, the rest is not moved. -/
def BlkPerm (kdim ncol : Nat) (p : Nat → Nat) : Prop :=
  ∃ σ, IsPerm (ncol / kdim) σ ∧ (∀ j < ncol / kdim, ∀ k < kdim, p (j * kdim + k) = σ j * kdim + k) ∧
    ∀ t, ncol / kdim * kdim ≤ t → t < ncol → p t = t

theorem in_blk {kdim a j k : Nat} (hk : k < kdim) : (a * kdim ≤ j * kdim + k ∧ j * kdim + k < a * kdim + kdim) ↔ a = j := by
  constructor
  · rintro ⟨h1, h2⟩
    by_contra hne
    rcases Nat.lt_or_gt_of_ne hne with h | h
    · have := Nat.mul_le_mul_right kdim (show a + 1 ≤ j by omega); rw [Nat.add_mul] at this; omega
    · have := Nat.mul_le_mul_right kdim (show j + 1 ≤ a by omega); rw [Nat.add_mul] at this; omega
  · rintro rfl; omega

theorem swapBlk_at {α : Type} (f : Nat → α) {kdim a b j k : Nat} (hk : k < kdim) :
    swapBlk kdim f a b (j * kdim + k) = f (swap (fun j => j) a b j * kdim + k) := by
  unfold swapBlk swap
  simp only [in_blk hk]
  by_cases h1 : j = a
  · subst h1; rw [if_pos rfl, if_pos rfl]; congr 1; omega
  · rw [if_neg (fun h => h1 h.symm), if_neg h1]
    by_cases h2 : j = b
    · subst h2; rw [if_pos rfl, if_pos rfl]; congr 1; omega
    · rw [if_neg (fun h => h2 h.symm), if_neg h2]

theorem swapBlk_rest {α : Type} (f : Nat → α) {kdim a b n t : Nat} (ha : a < n) (hb : b < n) (ht : n * kdim ≤ t) : swapBlk kdim f a b t = f t := by
  have h1 := Nat.mul_le_mul_right kdim (show a + 1 ≤ n by omega)
  have h2 := Nat.mul_le_mul_right kdim (show b + 1 ≤ n by omega)
  rw [Nat.add_mul] at h1 h2
  unfold swapBlk
  rw [if_neg (by omega), if_neg (by omega)]

theorem BlkPerm.swap {kdim ncol : Nat} {p : Nat → Nat} (h : BlkPerm kdim ncol p) {a b : Nat} (ha : a < ncol / kdim) (hb : b < ncol / kdim) :
    BlkPerm kdim ncol (swapBlk kdim p a b) := by
  obtain ⟨σ, h1, h2, h3⟩ := h
  refine ⟨ID.swap σ a b, h1.swap ha hb, ?_, ?_⟩
  · intro j hj k hk
    rw [swapBlk_at p hk, h2 _ ((isPerm_swap_id ha hb).lt j hj) k hk, ← swap_eq σ]
  · intro t ht ht'
    rw [swapBlk_rest p ha hb ht, h3 t ht ht']

theorem BlkPerm.isPerm {kdim ncol : Nat} (hk : 0 < kdim) {p : Nat → Nat} (h : BlkPerm kdim ncol p) : IsPerm ncol p := by
  obtain ⟨σ, h1, h2, h3⟩ := h
  have hle : ncol / kdim * kdim ≤ ncol := Nat.div_mul_le_self _ _
  have split : ∀ t < ncol / kdim * kdim, t / kdim < ncol / kdim ∧ t = t / kdim * kdim + t % kdim := by
    intro t ht
    refine ⟨by rw [Nat.div_lt_iff_lt_mul hk]; exact ht, ?_⟩
    have := Nat.div_add_mod t kdim
    rw [Nat.mul_comm] at this; omega
  have bound : ∀ t < ncol / kdim * kdim, p t = σ (t / kdim) * kdim + t % kdim ∧ p t < ncol / kdim * kdim := by
    intro t ht
    obtain ⟨e1, e2⟩ := split t ht
    have hm := Nat.mod_lt t hk
    have e3 := h2 _ e1 _ hm
    rw [← e2] at e3
    refine ⟨e3, ?_⟩
    have := Nat.mul_le_mul_right kdim (show σ (t / kdim) + 1 ≤ ncol / kdim from h1.lt _ e1)
    rw [Nat.add_mul] at this; omega
  constructor
  · intro j hj
    by_cases hc : j < ncol / kdim * kdim
    · exact lt_of_lt_of_le (bound j hc).2 hle
    · rw [h3 j (by omega) hj]; exact hj
  · intro j hj k hk' he
    by_cases c1 : j < ncol / kdim * kdim
    · by_cases c2 : k < ncol / kdim * kdim
      · have b1 := (bound j c1).1
        have b2 := (bound k c2).1
        obtain ⟨s1, s1'⟩ := split j c1
        obtain ⟨s2, s2'⟩ := split k c2
        have m1 := Nat.mod_lt j hk
        have m2 := Nat.mod_lt k hk
        rw [b1, b2] at he
        have hs : σ (j / kdim) = σ (k / kdim) := by
          have := (in_blk (kdim := kdim) (a := σ (j / kdim)) (j := σ (k / kdim)) m2).1 ⟨by omega, by omega⟩
          exact this
        have := h1.inj _ s1 _ s2 hs
        rw [hs] at he
        rw [s1', s2', this]; omega
      · have := (bound j c1).2; rw [he, h3 k (by omega) hk'] at this; omega
    · by_cases c2 : k < ncol / kdim * kdim
      · have := (bound k c2).2; rw [← he, h3 j (by omega) hj] at this; omega
      · rw [h3 j (by omega) hj, h3 k (by omega) hk'] at he; exact he

theorem qrkStep_perm (O : Ops K) (sz nrow ncol kdim : Nat) (stop : K) (V0 : Nat → Nat → K) (fuel i : Nat) (s s' : QRSt K)
    (h : qrkStep O sz nrow ncol kdim stop V0 fuel i s = .ok s') (hi : i < ncol / kdim) (hp : BlkPerm kdim ncol s.p)
    (hv : i ≤ s.pivot ∧ s.pivot < ncol / kdim) :
    BlkPerm kdim ncol s'.p ∧ (i + 1 < ncol / kdim → i + 1 ≤ s'.pivot ∧ s'.pivot < ncol / kdim) := by
  unfold qrkStep at h
  set s1 := if i ≠ s.pivot then { s with p := swapBlk kdim s.p i s.pivot, cn := swap s.cn i s.pivot, R := swapBlk kdim s.R i s.pivot } else s with hs1
  have hp1 : BlkPerm kdim ncol s1.p := by
    rw [hs1]; split
    · exact hp.swap hi hv.2
    · exact hp
  dsimp only at h
  cases hh : panel O nrow kdim (i * kdim) kdim 0 s1.R V0 with
  | ok q =>
    rw [hh] at h
    simp only [Res.bind_ok] at h
    generalize hc : chunks O kdim (nrow - i * kdim) (i * kdim) (i * kdim + kdim) (ncol - (i * kdim + kdim)) sz q.2 (wMat O (nrow - i * kdim) q.2 kdim) fuel 0 q.1 = c at h
    cases c with
    | ok R =>
      simp only [Res.bind_ok, Res.ok.injEq] at h
      subst h
      exact ⟨hp1, fun hlt => findPivot_mem O _ hlt⟩
    | ub => simp at h
    | diverge => simp at h
  | ub => rw [hh] at h; simp at h
  | diverge => rw [hh] at h; simp at h

theorem qrkLoop_perm (O : Ops K) (sz nrow ncol kdim : Nat) (stop : K) (sr : Int) (V0 : Nat → Nat → K) (fuel : Nat) :
    ∀ n i s r, qrkLoop O sz nrow ncol kdim stop sr V0 fuel n i s = .ok r → i + n ≤ ncol / kdim →
    BlkPerm kdim ncol s.p → (i < ncol / kdim → i ≤ s.pivot ∧ s.pivot < ncol / kdim) → (i : Int) ≤ max 0 sr →
    BlkPerm kdim ncol r.2.p ∧ ∃ b, r.1 = b * kdim ∧ b ≤ i + n ∧ (n ≠ 0 → (b : Int) ≤ max 0 sr) := by
  intro n
  induction n with
  | zero =>
    intro i s r h hi hp _ hs
    simp only [qrkLoop, Res.ok.injEq] at h
    subst h
    exact ⟨hp, i, rfl, le_refl _, fun h => absurd rfl h⟩
  | succ n ih =>
    intro i s r h hi hp hv hs
    rw [qrkLoop] at h
    split at h
    · next hc =>
      simp only [Res.ok.injEq] at h
      subst h
      exact ⟨hp, i, rfl, by omega, fun _ => hs⟩
    · next hc =>
      push Not at hc
      cases hq : qrkStep O sz nrow ncol kdim stop V0 fuel i s with
      | ok s' =>
        rw [hq] at h
        simp only [Res.bind_ok] at h
        obtain ⟨h1, h2⟩ := qrkStep_perm O sz nrow ncol kdim stop V0 fuel i s s' hq (by omega) hp (hv (by omega))
        obtain ⟨g1, b, g2, g3, g4⟩ := ih (i + 1) s' r h (by omega) h1 h2 (by push_cast; omega)
        refine ⟨g1, b, g2, by omega, fun _ => ?_⟩
        by_cases hn : n = 0
        · subst hn
          push_cast at *; omega
        · exact g4 hn
      | ub => rw [hq] at h; simp at h
      | diverge => rw [hq] at h; simp at h

theorem blkNorms_mem (O : Ops K) (kdim nblk : Nat) (bn : Nat → K) (h : 0 < nblk) : (blkNorms O kdim nblk bn).2.1 < nblk := by
  unfold blkNorms
  have key : ∀ (l : List Nat) (s : (Nat → K) × Nat × K), (∀ j ∈ l, j < nblk) → s.2.1 < nblk →
      (l.foldl (fun s j =>
        let v := O.sqrt ((List.range kdim).foldl (fun t k => O.add t (O.mul (s.1 (kdim * j + k)) (s.1 (kdim * j + k)))) O.zero)
        let bn := Function.update s.1 j v
        if O.lt s.2.2 v then (bn, j, v) else (bn, s.2.1, s.2.2)) s).2.1 < nblk := by
    intro l
    induction l with
    | nil => intro s _ h; exact h
    | cons x xs ih =>
      intro s hl hs
      refine ih _ (fun j hj => hl j (List.mem_cons_of_mem _ hj)) ?_
      dsimp only
      split
      · exact hl x List.mem_cons_self
      · exact hs
  exact key _ _ (fun j hj => List.mem_range.1 hj) h

theorem tdiv_mul_le (a : Int) (k : Nat) (hk : 0 < k) : max 0 (a.tdiv k) * k ≤ max 0 a := by
  by_cases h : 0 ≤ a
  · rw [Int.tdiv_eq_ediv_of_nonneg h]
    have h1 : 0 ≤ a / (k : Int) := Int.ediv_nonneg h (by omega)
    rw [max_eq_right h1, max_eq_right h]
    exact Int.ediv_mul_le _ (by omega)
  · have h1 : a.tdiv (k : Int) ≤ 0 := by
      obtain ⟨b, rfl⟩ : ∃ b, a = -b := ⟨-a, by omega⟩
      rw [Int.neg_tdiv]
      have := Int.tdiv_nonneg (show 0 ≤ b by omega) (show (0:Int) ≤ k by omega)
      omega
    rw [max_eq_left h1]; simp

theorem partialPivotQRk_perm (O : Ops K) (sz nrow ncol kdim : Nat) (hk : 0 < kdim) (tolRank : Int) (tol : K) (rel : Bool) (R : Nat → Nat → K) (p0 : Nat → Nat)
    (cn0 : Nat → K) (V0 : Nat → Nat → K) (fuel : Nat)
    (q : Nat × (Nat → Nat) × (Nat → Nat → K)) (h : partialPivotQRk O sz nrow ncol kdim tolRank tol rel R p0 cn0 V0 fuel = .ok q) :
    q.1 ≤ nrow ∧ q.1 ≤ ncol ∧ (q.1 : Int) ≤ max 0 tolRank ∧ kdim ∣ q.1 ∧ BlkPerm kdim ncol q.2.1 := by
  unfold partialPivotQRk at h
  dsimp only at h
  have hm : min nrow ncol / kdim ≤ ncol / kdim := Nat.div_le_div_right (by omega)
  generalize hst : stopNorm O nrow tol rel _ = stop at h
  set st : QRSt K := ⟨fun j => if j < ncol then j else p0 j, _, R, _, _⟩ with hs
  cases hl : qrkLoop O sz nrow ncol kdim stop (min ((min nrow ncol / kdim : Nat) : Int) (tolRank.tdiv kdim)) V0 fuel (min nrow ncol / kdim) 0 st with
  | ok r =>
    rw [hl] at h
    simp only [Res.bind_ok, Res.ok.injEq] at h
    obtain ⟨h1, b, h2, h3, h4⟩ := qrkLoop_perm O sz nrow ncol kdim _ _ V0 fuel _ 0 st r hl (by omega)
      ⟨fun j => j, IsPerm.id _, by
        intro j hj k hk'
        have : j * kdim + k < ncol := by
          have h1 := Nat.mul_le_mul_right kdim (show j + 1 ≤ ncol / kdim by omega)
          have h2 := Nat.div_mul_le_self ncol kdim
          rw [Nat.add_mul] at h1; omega
        rw [hs]; dsimp only; rw [if_pos this], by
        intro t _ ht; rw [hs]; dsimp only; rw [if_pos ht]⟩
      (fun hn => by rw [hs]; exact ⟨Nat.zero_le _, blkNorms_mem O _ _ _ hn⟩) (by simp)
    subst h
    dsimp only
    have hb : b * kdim ≤ min nrow ncol := le_trans (Nat.mul_le_mul_right kdim (show b ≤ min nrow ncol / kdim by omega)) (Nat.div_mul_le_self _ _)
    refine ⟨by omega, by omega, ?_, ⟨b, by rw [h2, Nat.mul_comm]⟩, h1⟩
    by_cases hz : min nrow ncol / kdim = 0
    · have : b = 0 := by omega
      rw [h2, this]; simp
    · have h5 := h4 hz
      rw [h2]; push_cast
      have h6 : (b : Int) ≤ max 0 (tolRank.tdiv kdim) := by omega
      exact le_trans (Int.mul_le_mul_of_nonneg_right h6 (by omega)) (tdiv_mul_le tolRank kdim hk)
  | ub => rw [hl] at h; simp at h
  | diverge => rw [hl] at h; simp at h

end H2Pack.ID
