import Verif.Model.Partition
import Mathlib.Tactic.Linarith
import Mathlib.Tactic.Ring
import Mathlib.Data.Finset.Card
import Mathlib.Data.Finset.Image
import Mathlib.Order.Interval.Finset.Nat
import Mathlib.Algebra.Group.End
import Mathlib.Data.List.Range

/-! # Bucket sort of the points of a node: helper lemmas -/

namespace H2Pack.Part
open H2Pack.Utils (Box)
variable {K : Type} [Field K] [LinearOrder K] [IsStrictOrderedRing K]

/-! ## Child index -/

/-- Binary number with given bits. -/
def binSum (bits : Nat → Nat) : Nat → Nat
  | 0 => 0
  | n+1 => binSum bits n + bits n * 2 ^ n

omit [IsStrictOrderedRing K] in
theorem childIdxLoop_eq (box : Box K) (x : Nat → K) : ∀ n j,
    childIdxLoop box x n j (2 ^ j) (binSum (relBit box x) j) = binSum (relBit box x) (j + n) := by
  intro n
  induction n with
  | zero => intro j; rfl
  | succ n ih =>
    intro j
    rw [childIdxLoop]
    have := ih (j+1)
    rw [show j + 1 + n = j + (n+1) by omega, pow_succ] at this
    exact this

omit [IsStrictOrderedRing K] in
theorem childIdx_eq (ptDim : Nat) (box : Box K) (x : Nat → K) : childIdx ptDim box x = binSum (relBit box x) ptDim := by
  have := childIdxLoop_eq box x ptDim 0
  rw [Nat.zero_add] at this
  exact this

omit [IsStrictOrderedRing K] in
theorem relBit_le (box : Box K) (x : Nat → K) (j : Nat) : relBit box x j ≤ 1 := by
  unfold relBit; split <;> omega

theorem binSum_congr {a b : Nat → Nat} {n : Nat} (h : ∀ j < n, a j = b j) : binSum a n = binSum b n := by
  induction n with
  | zero => rfl
  | succ n ih => rw [binSum, binSum, ih (fun j hj => h j (by omega)), h n (by omega)]

theorem binSum_lt {bits : Nat → Nat} (h : ∀ j, bits j ≤ 1) : ∀ n, binSum bits n < 2 ^ n := by
  intro n
  induction n with
  | zero => simp [binSum]
  | succ n ih =>
    rw [binSum, pow_succ]
    have : bits n * 2 ^ n ≤ 1 * 2 ^ n := Nat.mul_le_mul_right _ (h n)
    omega

theorem binSum_inj {a b : Nat → Nat} (ha : ∀ j, a j ≤ 1) (hb : ∀ j, b j ≤ 1) : ∀ n, binSum a n = binSum b n → ∀ j < n, a j = b j := by
  intro n
  induction n with
  | zero => intro _ j hj; omega
  | succ n ih =>
    intro h j hj
    rw [binSum, binSum] at h
    have h1 := binSum_lt ha n
    have h2 := binSum_lt hb n
    have han : a n = 0 ∨ a n = 1 := by have := ha n; omega
    have hbn : b n = 0 ∨ b n = 1 := by have := hb n; omega
    have hn : a n = b n := by
      rcases han with e1 | e1 <;> rcases hbn with e2 | e2 <;> rw [e1, e2] at h <;> omega
    rw [hn] at h
    rcases Nat.lt_or_ge j n with hjn | hjn
    · exact ih (by omega) j hjn
    · rw [show j = n by omega]; exact hn

/-! ## Counts and displacements -/

/-- number of `i < n` with `ci i = c` -/
def cntBelow (ci : Nat → Nat) (n c : Nat) : Nat := ((List.range n).filter (fun i => ci i = c)).length

theorem cntBelow_succ (ci : Nat → Nat) (n c : Nat) : cntBelow ci (n+1) c = cntBelow ci n c + if ci n = c then 1 else 0 := by
  unfold cntBelow
  rw [List.range_succ, List.filter_append, List.length_append]
  by_cases h : ci n = c <;> simp [h]

theorem cntBelow_zero (ci : Nat → Nat) (c : Nat) : cntBelow ci 0 c = 0 := rfl

theorem subCount_eq (ci : Nat → Nat) (n : Nat) : subCount ci n = cntBelow ci n := by
  induction n with
  | zero => rfl
  | succ n ih =>
    unfold subCount at ih ⊢
    rw [List.range_succ, List.foldl_append, ih]
    funext c
    rw [cntBelow_succ]
    simp only [List.foldl_cons, List.foldl_nil]
    by_cases h : ci n = c
    · rw [← h, Function.update_self, if_pos rfl]
    · rw [Function.update_of_ne (Ne.symm h), if_neg h, Nat.add_zero]

theorem cntBelow_mono (ci : Nat → Nat) (c : Nat) {m n : Nat} (h : m ≤ n) : cntBelow ci m c ≤ cntBelow ci n c := by
  induction n, h using Nat.le_induction with
  | base => exact le_refl _
  | succ n _ ih => rw [cntBelow_succ]; omega

theorem cntBelow_lt (ci : Nat → Nat) {i n : Nat} (h : i < n) : cntBelow ci i (ci i) < cntBelow ci n (ci i) := by
  have h1 := cntBelow_mono ci (ci i) (show i + 1 ≤ n from h)
  rw [cntBelow_succ, if_pos rfl] at h1
  omega

theorem cntBelow_pos {ci : Nat → Nat} {n c : Nat} (h : cntBelow ci n c ≠ 0) : ∃ i < n, ci i = c := by
  unfold cntBelow at h
  obtain ⟨x, hx⟩ := List.length_pos_iff_exists_mem.1 (Nat.pos_of_ne_zero h)
  rw [List.mem_filter, List.mem_range] at hx
  exact ⟨x, hx.1, by simpa using hx.2⟩

theorem displs_mono (cnt : Nat → Nat) {a b : Nat} (h : a ≤ b) : displs cnt a ≤ displs cnt b := by
  induction b, h using Nat.le_induction with
  | base => exact le_refl _
  | succ n _ ih => rw [displs]; omega

theorem displs_congr {a b : Nat → Nat} : ∀ M, (∀ c < M, a c = b c) → displs a M = displs b M := by
  intro M
  induction M with
  | zero => intro _; rfl
  | succ M ih => intro h; rw [displs, displs, ih (fun c hc => h c (by omega)), h M (by omega)]

theorem displs_bump (a : Nat → Nat) (c0 : Nat) : ∀ M,
    displs (fun c => a c + if c0 = c then 1 else 0) M = displs a M + if c0 < M then 1 else 0 := by
  intro M
  induction M with
  | zero => simp [displs]
  | succ M ih =>
    rw [displs, displs, ih]
    by_cases h1 : c0 = M
    · subst h1; simp; omega
    · by_cases h2 : c0 < M
      · rw [if_pos h2, if_neg h1, if_pos (by omega)]; omega
      · rw [if_neg h2, if_neg h1, if_neg (by omega)]; omega

theorem displs_total (ci : Nat → Nat) (M : Nat) (h : ∀ i, ci i < M) : ∀ n, displs (cntBelow ci n) M = n := by
  intro n
  induction n with
  | zero =>
    have : ∀ m, displs (cntBelow ci 0) m = 0 := by
      intro m; induction m with
      | zero => rfl
      | succ m ih => rw [displs, ih, cntBelow_zero]
    exact this M
  | succ n ih =>
    have e : displs (cntBelow ci (n+1)) M = displs (fun c => cntBelow ci n c + if ci n = c then 1 else 0) M :=
      displs_congr M (fun c _ => cntBelow_succ ci n c)
    rw [e, displs_bump, ih, if_pos (h n)]

/-- destination of the `i`-th point -/
def sig (ci : Nat → Nat) (n i : Nat) : Nat := displs (cntBelow ci n) (ci i) + cntBelow ci i (ci i)

theorem sig_range (ci : Nat → Nat) {n i : Nat} (h : i < n) :
    displs (cntBelow ci n) (ci i) ≤ sig ci n i ∧ sig ci n i < displs (cntBelow ci n) (ci i + 1) := by
  unfold sig
  rw [displs]
  have := cntBelow_lt ci h
  omega

theorem sig_lt (ci : Nat → Nat) (M : Nat) (hM : ∀ i, ci i < M) {n i : Nat} (h : i < n) : sig ci n i < n := by
  have h1 := (sig_range ci h).2
  have h2 := displs_mono (cntBelow ci n) (show ci i + 1 ≤ M from hM i)
  rw [displs_total ci M hM n] at h2
  omega

theorem sig_inj (ci : Nat → Nat) {n i i' : Nat} (h : i < n) (h' : i' < n) (he : sig ci n i = sig ci n i') : i = i' := by
  have r := sig_range ci h
  have r' := sig_range ci h'
  have hc : ci i = ci i' := by
    rcases Nat.lt_trichotomy (ci i) (ci i') with hlt | heq | hgt
    · have := displs_mono (cntBelow ci n) (show ci i + 1 ≤ ci i' from hlt); omega
    · exact heq
    · have := displs_mono (cntBelow ci n) (show ci i' + 1 ≤ ci i from hgt); omega
  unfold sig at he
  rw [hc] at he
  rcases Nat.lt_trichotomy i i' with hlt | heq | hgt
  · have := cntBelow_lt ci hlt
    rw [hc] at this; omega
  · exact heq
  · have := cntBelow_lt ci hgt
    omega

/-- A map that permutes an interval and fixes the rest, as a permutation. -/
theorem exists_perm (s n : Nat) (σ : Nat → Nat) (hlt : ∀ i < n, σ i < n) (hinj : ∀ i < n, ∀ i' < n, σ i = σ i' → i = i') :
    ∃ π : Equiv.Perm Nat, (∀ p, ¬ (s ≤ p ∧ p < s + n) → π p = p) ∧ (∀ i < n, π (s + σ i) = s + i) := by
  let f : Nat → Nat := fun p => if s ≤ p ∧ p < s + n then s + σ (p - s) else p
  have hfin : ∀ p, s ≤ p ∧ p < s + n → f p = s + σ (p - s) := fun p h => if_pos h
  have hfout : ∀ p, ¬ (s ≤ p ∧ p < s + n) → f p = p := fun p h => if_neg h
  have finj : Function.Injective f := by
    intro p q hpq
    by_cases hp : s ≤ p ∧ p < s + n <;> by_cases hq : s ≤ q ∧ q < s + n
    · rw [hfin p hp, hfin q hq] at hpq
      have := hinj (p - s) (by omega) (q - s) (by omega) (by omega)
      omega
    · rw [hfin p hp, hfout q hq] at hpq
      have := hlt (p - s) (by omega)
      omega
    · rw [hfout p hp, hfin q hq] at hpq
      have := hlt (q - s) (by omega)
      omega
    · rw [hfout p hp, hfout q hq] at hpq; exact hpq
  have fsurj : Function.Surjective f := by
    intro q
    by_cases hq : s ≤ q ∧ q < s + n
    · have hsub : (Finset.Ico s (s+n)).image f ⊆ Finset.Ico s (s+n) := by
        intro y hy
        rw [Finset.mem_image] at hy
        obtain ⟨x, hx, rfl⟩ := hy
        rw [Finset.mem_Ico] at hx ⊢
        rw [hfin x hx]
        have := hlt (x - s) (by omega)
        omega
      have heq : (Finset.Ico s (s+n)).image f = Finset.Ico s (s+n) :=
        Finset.eq_of_subset_of_card_le hsub (by rw [Finset.card_image_of_injective _ finj])
      have : q ∈ (Finset.Ico s (s+n)).image f := by rw [heq, Finset.mem_Ico]; exact hq
      rw [Finset.mem_image] at this
      obtain ⟨x, _, hx⟩ := this
      exact ⟨x, hx⟩
    · exact ⟨q, hfout q hq⟩
  let F : Equiv.Perm Nat := Equiv.ofBijective f ⟨finj, fsurj⟩
  refine ⟨F.symm, ?_, ?_⟩
  · intro p hp
    rw [Equiv.symm_apply_eq]
    exact (hfout p hp).symm
  · intro i hi
    rw [Equiv.symm_apply_eq]
    show s + σ i = f (s + i)
    rw [hfin _ (by omega)]
    congr 2; omega

/-! ## The sorting loop -/

omit [IsStrictOrderedRing K] [LinearOrder K] [Field K] in
theorem sortLoop_spec (P : Params K) (s n : Nat) (ci : Nat → Nat) (hM : ∀ i, ci i < 2 ^ P.ptDim) (hn : s + n ≤ P.nPoint) (old : St K) :
    ∀ (k m : Nat) (b : Sorting K), m + k = n →
    (∀ c, b.d c = displs (cntBelow ci n) c + cntBelow ci m c) →
    ∃ b', sortLoop P s ci old (List.range' m k) b = .ok b' ∧
      (∀ i, m ≤ i → i < n → b'.idx (s + sig ci n i) = old.idx (s + i) ∧ ∀ j < P.xptDim, b'.coord (s + sig ci n i) j = old.coord (s + i) j) ∧
      (∀ p, (∀ i, m ≤ i → i < n → p ≠ s + sig ci n i) → b'.idx p = b.idx p ∧ b'.coord p = b.coord p) := by
  intro k
  induction k with
  | zero =>
    intro m b hm hd
    exact ⟨b, rfl, fun i h1 h2 => by omega, fun p _ => ⟨rfl, rfl⟩⟩
  | succ k ih =>
    intro m b hm hd
    have hmn : m < n := by omega
    have hdst : b.d (ci m) = sig ci n m := hd (ci m)
    have hlt := sig_lt ci _ hM hmn
    obtain ⟨b', e, q1, q2⟩ := ih (m+1)
      ⟨Function.update b.d (ci m) (b.d (ci m) + 1),
       Function.update b.coord (s + b.d (ci m)) (fun j => if j < P.xptDim then old.coord (s + m) j else b.coord (s + b.d (ci m)) j),
       Function.update b.idx (s + b.d (ci m)) (old.idx (s + m))⟩ (by omega) (by
        intro c
        rw [cntBelow_succ]
        dsimp only
        by_cases hc : ci m = c
        · subst hc; rw [Function.update_self, if_pos rfl, hd]; omega
        · rw [Function.update_of_ne (Ne.symm hc), if_neg hc, hd]; omega)
    refine ⟨b', ?_, ?_, ?_⟩
    · rw [List.range'_succ, sortLoop, sortStep]
      rw [if_pos ⟨hM m, by omega, by rw [hdst]; omega⟩]
      exact e
    · intro i h1 h2
      by_cases hi : i = m
      · subst hi
        obtain ⟨r1, r2⟩ := q2 (s + sig ci n i) (fun i' h3 h4 h5 => by
          have := sig_inj ci hmn h4 (by omega); omega)
        rw [r1, r2]
        dsimp only
        rw [hdst, Function.update_self, Function.update_self]
        exact ⟨rfl, fun j hj => if_pos hj⟩
      · exact q1 i (by omega) h2
    · intro p hp
      obtain ⟨r1, r2⟩ := q2 p (fun i h1 h2 => hp i (by omega) h2)
      rw [r1, r2]
      dsimp only
      have := hp m (le_refl _) hmn
      rw [Function.update_of_ne (by rw [hdst]; exact this), Function.update_of_ne (by rw [hdst]; exact this)]
      exact ⟨rfl, rfl⟩

/-- Data of `st'` are those of `st`, permuted inside `[s, s+n)`. -/
def Permuted (x s n : Nat) (st st' : St K) (π : Equiv.Perm Nat) : Prop :=
  (∀ p, ¬ (s ≤ p ∧ p < s + n) → π p = p) ∧ (∀ p, st'.idx p = st.idx (π p)) ∧ (∀ p, ∀ j < x, st'.coord p j = st.coord (π p) j)

/-- A permutation fixing the outside of an interval maps the interval to itself. -/
theorem perm_maps {s n : Nat} {π : Equiv.Perm Nat} (h : ∀ p, ¬ (s ≤ p ∧ p < s + n) → π p = p) (p : Nat) :
    (s ≤ π p ∧ π p < s + n) ↔ (s ≤ p ∧ p < s + n) := by
  constructor
  · intro hp
    by_contra hcon
    rw [h p hcon] at hp
    exact hcon hp
  · intro hp
    by_contra hcon
    have := π.injective (h (π p) hcon)
    rw [this] at hcon
    exact hcon hp

omit [IsStrictOrderedRing K] [LinearOrder K] [Field K] in
theorem Permuted.trans {x s n s1 n1 s2 n2 : Nat} {a b c : St K} {π1 π2 : Equiv.Perm Nat} (h1 : Permuted x s1 n1 a b π1)
    (h2 : Permuted x s2 n2 b c π2) (hs1 : s ≤ s1 ∧ s1 + n1 ≤ s + n) (hs2 : s ≤ s2 ∧ s2 + n2 ≤ s + n) :
    Permuted x s n a c (π1 * π2) := by
  refine ⟨?_, ?_, ?_⟩
  · intro p hp
    rw [Equiv.Perm.mul_apply, h2.1 p (by omega), h1.1 p (by omega)]
  · intro p; rw [Equiv.Perm.mul_apply, h2.2.1, h1.2.1]
  · intro p j hj; rw [Equiv.Perm.mul_apply, h2.2.2 p j hj, h1.2.2 _ j hj]

omit [IsStrictOrderedRing K] in
/-- Result of sorting the points of a node. -/
theorem sort_spec (P : Params K) (s n : Nat) (hn : s + n ≤ P.nPoint) (box : Box K) (st : St K) :
    ∃ b, sortLoop P s (fun i => childIdx P.ptDim box (st.coord (s + i))) st (List.range n)
        ⟨displs (subCount (fun i => childIdx P.ptDim box (st.coord (s + i))) n), st.coord, st.idx⟩ = .ok b ∧
      displs (subCount (fun i => childIdx P.ptDim box (st.coord (s + i))) n) (2 ^ P.ptDim) = n ∧
      (∃ π, Permuted P.xptDim s n st { st with coord := b.coord, idx := b.idx } π) ∧
      (∀ c p, displs (subCount (fun i => childIdx P.ptDim box (st.coord (s + i))) n) c ≤ p →
        p < displs (subCount (fun i => childIdx P.ptDim box (st.coord (s + i))) n) (c+1) → p < n →
        ∃ i < n, childIdx P.ptDim box (st.coord (s + i)) = c ∧ ∀ j < P.xptDim, b.coord (s + p) j = st.coord (s + i) j) := by
  generalize hci : (fun i => childIdx P.ptDim box (st.coord (s + i))) = ci
  have hM : ∀ i, ci i < 2 ^ P.ptDim := by
    intro i; rw [← hci]; dsimp only; rw [childIdx_eq]; exact binSum_lt (relBit_le _ _) _
  have hcc : ∀ i, childIdx P.ptDim box (st.coord (s + i)) = ci i := fun i => by rw [← hci]
  rw [subCount_eq]
  obtain ⟨b, e, q1, q2⟩ := sortLoop_spec P s n ci hM hn st n 0 ⟨displs (cntBelow ci n), st.coord, st.idx⟩ (by omega)
    (fun c => by rw [cntBelow_zero]; rfl)
  obtain ⟨π, p1, p2⟩ := exists_perm s n (sig ci n) (fun i hi => sig_lt ci _ hM hi) (fun i hi i' hi' => sig_inj ci hi hi')
  have hpre : ∀ p, s ≤ p ∧ p < s + n → ∃ i < n, p = s + sig ci n i ∧ π p = s + i := by
    intro p hp
    have h1 := (perm_maps p1 p).2 hp
    have h2 := p2 (π p - s) (by omega)
    rw [show s + (π p - s) = π p by omega] at h2
    have h3 := π.injective h2
    exact ⟨π p - s, by omega, h3.symm, by omega⟩
  refine ⟨b, by rw [List.range_eq_range']; exact e, displs_total ci _ hM n, ⟨π, p1, ?_, ?_⟩, ?_⟩
  · intro p
    by_cases hp : s ≤ p ∧ p < s + n
    · obtain ⟨i, hi, h1, h2⟩ := hpre p hp
      rw [h2, h1]
      exact (q1 i (by omega) hi).1
    · rw [p1 p hp]
      exact (q2 p (fun i _ hi h => hp (by have := sig_lt ci _ hM hi; omega))).1
  · intro p j hj
    by_cases hp : s ≤ p ∧ p < s + n
    · obtain ⟨i, hi, h1, h2⟩ := hpre p hp
      rw [h2, h1]
      exact (q1 i (by omega) hi).2 j hj
    · rw [p1 p hp]
      show b.coord p j = st.coord p j
      rw [(q2 p (fun i _ hi h => hp (by have := sig_lt ci _ hM hi; omega))).2]
  · intro c p h1 h2 h3
    obtain ⟨i, hi, h4, _⟩ := hpre (s + p) (by omega)
    have hp : p = sig ci n i := by omega
    refine ⟨i, hi, ?_, ?_⟩
    · rw [hcc]
      have r := sig_range ci hi
      rcases Nat.lt_trichotomy (ci i) c with hlt | heq | hgt
      · have := displs_mono (cntBelow ci n) (show ci i + 1 ≤ c from hlt); omega
      · exact heq
      · have := displs_mono (cntBelow ci n) (show c + 1 ≤ ci i from hgt); omega
    · intro j hj
      rw [hp]
      exact (q1 i (by omega) hi).2 j hj

/-- The recorded bits of a non-empty child are the bits of all its points. -/
theorem subRel_spec (ci : Nat → Nat) (bits : Nat → Nat → Nat) (g : Nat → Nat → Nat) : ∀ n c, (∃ i < n, ci i = c) →
    ∃ i < n, ci i = c ∧ subRel ci bits n g c = bits i := by
  intro n
  induction n with
  | zero => intro c ⟨i, hi, _⟩; omega
  | succ n ih =>
    intro c hex
    have hrec : subRel ci bits (n+1) g = Function.update (subRel ci bits n g) (ci n) (bits n) := by
      unfold subRel; rw [List.range_succ, List.foldl_append]; rfl
    rw [hrec]
    by_cases h : ci n = c
    · exact ⟨n, by omega, h, by rw [h, Function.update_self]⟩
    · rw [Function.update_of_ne (Ne.symm h)]
      obtain ⟨i, hi, hc⟩ := hex
      obtain ⟨i', hi', h1, h2⟩ := ih c ⟨i, by
        rcases Nat.lt_or_ge i n with hh | hh
        · exact hh
        · exfalso; apply h; rw [← hc]; congr 1; omega, hc⟩
      exact ⟨i', by omega, h1, h2⟩

end H2Pack.Part
