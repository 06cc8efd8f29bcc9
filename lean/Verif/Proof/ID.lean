import Verif.Proof.QR4
import Verif.Proof.QSort
import Verif.Props.DenseMat

/-!
# Interpolative decomposition: lemmas
-/

namespace H2Pack.ID

open Finset

variable {K : Type}

theorem IsPerm.surj {n : Nat} {p : Nat → Nat} (h : IsPerm n p) {a : Nat} (ha : a < n) : ∃ j < n, p j = a := by
  let g : Fin n → Fin n := fun x => ⟨p x, h.lt x x.2⟩
  have hg : Function.Injective g := by
    intro x y hxy
    exact Fin.ext (h.inj x x.2 y y.2 (by simpa [g] using hxy))
  obtain ⟨x, hx⟩ := (Finite.injective_iff_surjective.1 hg) ⟨a, ha⟩
  exact ⟨x, x.2, by simpa [g] using congrArg Fin.val hx⟩

theorem invPerm_spec {n : Nat} {p : Nat → Nat} (h : ∀ j < n, ∀ k < n, p j = p k → j = k) (g : Nat → Nat) {i : Nat} (hi : i < n) :
    invPerm n p g (p i) = i := by
  induction n with
  | zero => omega
  | succ n ih =>
    unfold invPerm
    rw [List.range_succ, List.foldl_append]
    simp only [List.foldl_cons, List.foldl_nil]
    by_cases hin : i = n
    · subst hin; rw [Function.update_self]
    · have : p i ≠ p n := fun e => hin (h i hi n (by omega) e)
      rw [Function.update_of_ne this]
      exact ih (fun j hj k hk => h j (by omega) k (by omega)) (by omega)

theorem invPerm_lt {n : Nat} {p : Nat → Nat} (h : IsPerm n p) (g : Nat → Nat) {a : Nat} (ha : a < n) :
    invPerm n p g a < n ∧ p (invPerm n p g a) = a := by
  obtain ⟨j, hj, rfl⟩ := h.surj ha
  rw [invPerm_spec h.inj g hj]
  exact ⟨hj, rfl⟩

/-! ## The sorted selection -/

/-- The result of the sort: `J` is `p` after a rearrangement `i0` of the first `r` places. -/
structure Sorted (n r : Nat) (p J i0 : Nat → Nat) : Prop where
  perm : IsPerm n i0
  low : ∀ i < r, i0 i < r
  high : ∀ i, r ≤ i → i < n → i0 i = i
  key : ∀ i < n, J i = p (i0 i)
  mono : ∀ a b, a < b → b < r → J a < J b

theorem sort_spec {n r : Nat} (hn : 1 ≤ n) (hr : r ≤ n) {p : Nat → Nat} (hp : IsPerm n p) :
    ∃ kv, Returns (fun fuel => H2Pack.CSR.qsort (κ := Int) (ν := Int) n fuel ⟨fun k => p k.toNat, fun k => k⟩ 0 ((r : Int) - 1)) kv ∧
      Sorted n r p (fun i : Nat => (kv.key i).toNat) (fun i : Nat => (kv.val i).toNat) := by
  have key : ∃ kv, Returns (fun fuel => H2Pack.CSR.qsort (κ := Int) (ν := Int) n fuel ⟨fun k => p k.toNat, fun k => k⟩ 0 ((r : Int) - 1)) kv ∧
      H2Pack.CSR.PermOn (κ := Int) (ν := Int) 0 ((r : Int) - 1) ⟨fun k => p k.toNat, fun k => k⟩ kv ∧ H2Pack.CSR.SortedOn 0 ((r : Int) - 1) kv := by
    by_cases h0 : r = 0
    · subst h0
      exact ⟨_, H2Pack.CSR.qsort_empty (κ := Int) (ν := Int) n ⟨fun k => p k.toNat, fun k => k⟩ 0 (by omega) (by omega) (by omega), H2Pack.CSR.PermOn.refl _ _ _,
        fun a b h1 h2 h3 => by simp at h3; omega⟩
    · exact H2Pack.CSR.qsort_spec (κ := Int) (ν := Int) n _ _ 0 ((r : Int) - 1) (le_refl _) (by omega) (by omega) (by omega)
  obtain ⟨kv, h1, ⟨σ, s1, s2, s3⟩, h3⟩ := key
  refine ⟨kv, h1, ?_⟩
  have hin : ∀ i : Nat, i < r → 0 ≤ σ i ∧ σ i ≤ (r : Int) - 1 := fun i hi => H2Pack.CSR.perm_mem s1 ⟨by omega, by omega⟩
  have hout : ∀ i : Nat, r ≤ i → σ i = i := fun i hi => s1 i (by omega)
  have hval : ∀ i : Nat, kv.val i = σ i := fun i => by rw [s3]
  have hnn : ∀ i : Nat, 0 ≤ σ i := by
    intro i
    by_cases h : i < r
    · exact (hin i h).1
    · rw [hout i (by omega)]; omega
  have hi0 : ∀ i : Nat, (((kv.val i).toNat : Nat) : Int) = σ i := by
    intro i; rw [hval, Int.toNat_of_nonneg (hnn i)]
  have hlt : ∀ i < n, (kv.val (i : Nat)).toNat < n := by
    intro i hi
    have := hi0 i
    by_cases h : i < r
    · have := hin i h; omega
    · rw [hout i (by omega)] at this; omega
  have hinj : ∀ j < n, ∀ k < n, (kv.val (j : Nat)).toNat = (kv.val (k : Nat)).toNat → j = k := by
    intro j _ k _ e
    have h1 := hi0 j
    rw [e, hi0 k] at h1
    have := σ.injective h1
    omega
  have hlow : ∀ i < r, (kv.val (i : Nat)).toNat < r := by
    intro i hi
    have := hi0 i; have := hin i hi; omega
  have hkey : ∀ i : Nat, (kv.key i).toNat = p (kv.val i).toNat := by
    intro i; rw [s2, hval]; simp
  refine ⟨⟨hlt, hinj⟩, hlow, ?_, fun i _ => hkey i, ?_⟩
  · intro i hi _
    have := hi0 i
    rw [hout i hi] at this; omega
  · intro a b hab hb
    have hle := h3 a b (by omega) (by omega) (by omega)
    have hne : (kv.key (a : Nat)).toNat ≠ (kv.key (b : Nat)).toNat := by
      rw [hkey, hkey]
      intro e
      have := hp.inj _ (hlt a (by omega)) _ (hlt b (by omega)) e
      have := hinj a (by omega) b (by omega) this
      omega
    have ha : 0 ≤ kv.key (a : Nat) := by rw [s2]; positivity
    have hb' : 0 ≤ kv.key (b : Nat) := by rw [s2]; positivity
    show (kv.key (a : Nat)).toNat < (kv.key (b : Nat)).toNat
    omega

/-! ## The triangular solve -/

theorem trsmCol_congr (O : Ops K) {D D' : Nat → Nat → K} : ∀ n b, (∀ k < n, D k = D' k) → trsmCol O D n b = trsmCol O D' n b := by
  intro n
  induction n with
  | zero => intro b _; rfl
  | succ n ih =>
    intro b h
    rw [trsmCol, trsmCol, h n (by omega)]
    congr 1; funext x
    exact ih _ fun k hk => h k (by omega)

theorem trsm_spec (O : Ops K) (r : Nat) : ∀ n j R X, r ≤ j → trsm O r n j R = .ok X →
    (∀ k, k < j → X k = R k) ∧ ∀ k, j ≤ k → k < j + n → trsmCol O R r (R k) = .ok (X k) := by
  intro n
  induction n with
  | zero =>
    intro j R X _ h
    rw [trsm, Res.ok.injEq] at h
    subst h
    exact ⟨fun _ _ => rfl, fun k h1 h2 => by omega⟩
  | succ n ih =>
    intro j R X hj h
    rw [trsm] at h
    cases hx : trsmCol O R r (R j) with
    | ok x =>
      rw [hx, Res.bind_ok] at h
      obtain ⟨a1, a2⟩ := ih (j + 1) _ X (by omega) h
      refine ⟨fun k hk => ?_, fun k h1 h2 => ?_⟩
      · rw [a1 k (by omega), Function.update_of_ne (by omega)]
      · by_cases hk : k = j
        · subst hk
          rw [a1 k (by omega), Function.update_self]; exact hx
        · have := a2 k (by omega) (by omega)
          rw [Function.update_of_ne hk] at this
          rw [← this]
          apply trsmCol_congr
          intro u hu
          rw [Function.update_of_ne (by omega)]
    | ub => rw [hx] at h; simp at h
    | diverge => rw [hx] at h; simp at h

theorem trsmCol_total {O : Ops K} {D : Nat → Nat → K} (hd : ∀ n b, ∃ c, O.div b (D n n) = .ok c) : ∀ n b, ∃ x, trsmCol O D n b = .ok x := by
  intro n
  induction n with
  | zero => intro b; exact ⟨b, rfl⟩
  | succ n ih =>
    intro b
    obtain ⟨c, hc⟩ := hd n (b n)
    rw [trsmCol, hc, Res.bind_ok]
    exact ih _

theorem trsm_total {O : Ops K} {r : Nat} : ∀ n j R, r ≤ j → (∀ b, ∃ x, trsmCol O R r b = .ok x) → ∃ X, trsm O r n j R = .ok X := by
  intro n
  induction n with
  | zero => intro j R _ _; exact ⟨R, rfl⟩
  | succ n ih =>
    intro j R hj h
    obtain ⟨x, hx⟩ := h (R j)
    rw [trsm, hx, Res.bind_ok]
    apply ih (j + 1) _ (by omega)
    intro b
    obtain ⟨y, hy⟩ := h b
    refine ⟨y, ?_⟩
    rw [← hy]
    apply trsmCol_congr
    intro k hk
    rw [Function.update_of_ne (by omega)]

variable {e f t : ℝ}

theorem trsmCol_real (D : Nat → Nat → ℝ) : ∀ n b, (∀ k < n, D k k ≠ 0) → ∃ x, trsmCol (realOps e f t) D n b = .ok x ∧
    (∀ i, n ≤ i → x i = b i) ∧ ∀ i < n, ∑ k ∈ range n, x k * (if i ≤ k then D k i else 0) = b i := by
  intro n
  induction n with
  | zero => intro b _; exact ⟨b, rfl, fun _ _ => rfl, fun i hi => by omega⟩
  | succ n ih =>
    intro b hd
    have hdiv : (realOps e f t).div (b n) (D n n) = .ok (b n / D n n) := by
      show (if D n n = 0 then _ else _) = _
      rw [if_neg (hd n (by omega))]
    rw [trsmCol, hdiv, Res.bind_ok]
    set b' : Nat → ℝ := fun i => if i = n then b n / D n n else if i < n then (realOps e f t).sub (b i) ((realOps e f t).mul (b n / D n n) (D n i)) else b i with hb'
    obtain ⟨x, h1, h2, h3⟩ := ih b' (fun k hk => hd k (by omega))
    have hxn : x n = b n / D n n := by rw [h2 n (le_refl _), hb']; simp
    refine ⟨x, h1, ?_, ?_⟩
    · intro i hi
      rw [h2 i (by omega), hb']
      dsimp only
      rw [if_neg (by omega), if_neg (by omega)]
    · intro i hi
      rw [sum_range_succ, hxn]
      by_cases hin : i = n
      · subst hin
        rw [if_pos (le_refl _), Finset.sum_eq_zero, zero_add, div_mul_cancel₀ _ (hd i (by omega))]
        intro k hk
        rw [mem_range] at hk
        rw [if_neg (by omega), mul_zero]
      · rw [h3 i (by omega), if_pos (by omega), hb']
        dsimp only
        rw [if_neg hin, if_pos (by omega)]
        show b i - b n / D n n * D n i + _ = _
        ring

/-! ## `U` before the permutation -/

theorem foldl_update_other {α : Type} (g : Nat → Nat) (v : Nat → α) : ∀ (l : List Nat) (d : Nat → α) (k : Nat), (∀ i ∈ l, g i ≠ k) →
    l.foldl (fun d i => Function.update d (g i) (v i)) d k = d k := by
  intro l
  induction l with
  | nil => intro d k _; rfl
  | cons a l ih =>
    intro d k h
    rw [List.foldl_cons, ih _ _ fun i hi => h i (List.mem_cons_of_mem _ hi), Function.update_of_ne (h a List.mem_cons_self).symm]

theorem foldl_update_at {α : Type} (g : Nat → Nat) (v : Nat → α) (n : Nat) (hg : ∀ i < n, ∀ j < n, g i = g j → i = j) (d : Nat → α) {i : Nat} (hi : i < n) :
    (List.range n).foldl (fun d i => Function.update d (g i) (v i)) d (g i) = v i := by
  induction n with
  | zero => omega
  | succ n ih =>
    rw [List.range_succ, List.foldl_append]
    simp only [List.foldl_cons, List.foldl_nil]
    by_cases hin : i = n
    · subst hin; rw [Function.update_self]
    · rw [Function.update_of_ne (fun e => hin (hg i hi n (by omega) e))]
      exact ih (fun a ha b hb => hg a (by omega) b (by omega)) (by omega)

theorem formU_top (O : Ops K) {r i j : Nat} (n : Nat) (g : Nat → K) (hi : i < n) (hj : j < r) :
    (List.range n).foldl (fun d i => Function.update (fun k => if i * r ≤ k ∧ k < i * r + r then O.zero else d k) (i * r + i) O.one) g (i * r + j) =
      if n ≤ r then (if i = j then O.one else O.zero) else
      (List.range n).foldl (fun d i => Function.update (fun k => if i * r ≤ k ∧ k < i * r + r then O.zero else d k) (i * r + i) O.one) g (i * r + j) := by
  by_cases hn : n ≤ r
  · rw [if_pos hn]
    induction n with
    | zero => omega
    | succ n ih =>
      rw [List.range_succ, List.foldl_append]
      simp only [List.foldl_cons, List.foldl_nil]
      by_cases hin : i = n
      · subst hin
        by_cases hij : i = j
        · subst hij; rw [Function.update_self, if_pos rfl]
        · rw [Function.update_of_ne (by omega), if_neg hij, if_pos (by omega)]
      · have h1 : (i + 1) * r ≤ n * r := Nat.mul_le_mul_right r (by omega)
        rw [Nat.add_mul] at h1
        rw [Function.update_of_ne (by omega), if_neg (by omega)]
        exact ih (by omega) (by omega)
  · rw [if_neg hn]

theorem formU_low (O : Ops K) {nrow r : Nat} (hr : r ≤ nrow) (i0 : Nat → Nat) (X : Nat → Nat → K) (g : Nat → K) {a j : Nat} (ha : a < r) (hj : j < r) :
    formU O nrow r i0 X g (a * r + j) = if a = j then O.one else O.zero := by
  unfold formU
  have h1 : (a + 1) * r ≤ r * r := Nat.mul_le_mul_right r (by omega)
  rw [Nat.add_mul] at h1
  have key : ∀ (l : List Nat) (d : Nat → K), l.foldl (fun d icol => (List.range (nrow - r)).foldl (fun d irow =>
      Function.update d (r * r + icol + irow * r) (X (r + irow) (i0 icol))) d) d (a * r + j) = d (a * r + j) := by
    intro l
    induction l with
    | nil => intro d; rfl
    | cons c l ih =>
      intro d
      rw [List.foldl_cons, ih, foldl_update_other (fun irow => r * r + c + irow * r) (fun irow => X (r + irow) (i0 c))]
      intro i _
      omega
  rw [key, formU_top O r g ha hj, if_pos (le_refl _)]

theorem formU_high (O : Ops K) {nrow r : Nat} (i0 : Nat → Nat) (X : Nat → Nat → K) (g : Nat → K) {a j : Nat} (ha : r ≤ a) (ha' : a < nrow) (hj : j < r) :
    formU O nrow r i0 X g (a * r + j) = X a (i0 j) := by
  unfold formU
  have he : a * r + j = r * r + j + (a - r) * r := by
    conv_lhs => rw [show a = r + (a - r) by omega, Nat.add_mul]
    omega
  have hinj : ∀ u v c, c < r → r * r + c + u * r = r * r + j + v * r → c = j ∧ u = v := by
    intro u v c hc h
    have h1 : c + r * u = j + r * v := by rw [Nat.mul_comm r u, Nat.mul_comm r v]; omega
    have h2 : (c + r * u) % r = (j + r * v) % r := by rw [h1]
    rw [Nat.add_mul_mod_self_left, Nat.add_mul_mod_self_left, Nat.mod_eq_of_lt hc, Nat.mod_eq_of_lt hj] at h2
    refine ⟨h2, ?_⟩
    subst h2
    have h3 : r * u = r * v := by omega
    exact Nat.eq_of_mul_eq_mul_left (by omega) h3
  have key : ∀ n ≤ r, ∀ (d : Nat → K), j < n → (List.range n).foldl (fun d icol => (List.range (nrow - r)).foldl (fun d irow =>
      Function.update d (r * r + icol + irow * r) (X (r + irow) (i0 icol))) d) d (a * r + j) = X a (i0 j) := by
    intro n
    induction n with
    | zero => intro _ d h; omega
    | succ n ih =>
      intro hn d h
      rw [List.range_succ, List.foldl_append]
      simp only [List.foldl_cons, List.foldl_nil]
      by_cases hjn : j = n
      · subst hjn
        rw [he]
        have := foldl_update_at (fun irow => r * r + j + irow * r) (fun irow => X (r + irow) (i0 j)) (nrow - r)
          (fun u _ v _ h => (hinj u v j hj h).2)
          ((List.range j).foldl (fun d icol => (List.range (nrow - r)).foldl (fun d irow =>
            Function.update d (r * r + icol + irow * r) (X (r + irow) (i0 icol))) d) d) (show a - r < nrow - r by omega)
        rw [this]
        rw [show r + (a - r) = a by omega]
      · rw [foldl_update_other (fun irow => r * r + n + irow * r) (fun irow => X (r + irow) (i0 n))]
        · exact ih (by omega) d (by omega)
        · intro i _ h'
          rw [he] at h'
          have := (hinj i (a - r) n (by omega) h').1
          omega
  exact key r (le_refl _) _ hj

/-! ## Groups -/

theorem groupJ_at {kdim : Nat} (hk : 0 < kdim) (J : Nat → Nat) (len : Nat) {i : Nat} (hi : i < len / kdim) :
    (groupJ kdim J len).1 i = J (i * kdim) / kdim ∧ (groupJ kdim J len).2 = len / kdim := by
  unfold groupJ
  by_cases h1 : kdim > 1
  · rw [if_pos h1]
    refine ⟨?_, rfl⟩
    have key : ∀ n, (∀ k, n < k → (List.range' 1 n).foldl (fun J i => Function.update J i (J (i * kdim) / kdim)) (Function.update J 0 (J 0 / kdim)) k = J k) ∧
        ∀ k ≤ n, (List.range' 1 n).foldl (fun J i => Function.update J i (J (i * kdim) / kdim)) (Function.update J 0 (J 0 / kdim)) k = J (k * kdim) / kdim := by
      intro n
      induction n with
      | zero =>
        refine ⟨fun k hk => ?_, fun k hk => ?_⟩
        · simp only [List.range'_zero, List.foldl_nil]
          rw [Function.update_of_ne (by omega)]
        · obtain rfl : k = 0 := by omega
          simp
      | succ n ih =>
        rw [List.range'_1_concat, List.foldl_append]
        simp only [List.foldl_cons, List.foldl_nil]
        have hlt : n < (1 + n) * kdim := by
          have := Nat.mul_le_mul_left (1 + n) (show 2 ≤ kdim by omega); omega
        refine ⟨fun k hk => ?_, fun k hk => ?_⟩
        · rw [Function.update_of_ne (by omega)]; exact ih.1 k (by omega)
        · by_cases hkn : k = 1 + n
          · subst hkn; rw [Function.update_self, ih.1 _ hlt]
          · rw [Function.update_of_ne hkn]; exact ih.2 k (by omega)
    exact (key (len / kdim - 1)).2 i (by omega)
  · obtain rfl : kdim = 1 := by omega
    simp

theorem strictMono_groups {r kdim : Nat} (hk : 0 < kdim) (hr : kdim ∣ r) {J : Nat → Nat} (hm : ∀ a b, a < b → b < r → J a < J b)
    (hb : ∀ u < r, ∀ w, w / kdim = J u / kdim → ∃ v < r, J v = w) :
    ∀ u < r, J u % kdim = u % kdim ∧ (u % kdim ≠ 0 → J u = J (u - 1) + 1) := by
  have hinc : ∀ a b, a < r → b < r → J a < J b → a < b := by
    intro a b ha hb' h
    by_contra hn
    rcases Nat.lt_or_ge b a with h' | h'
    · have := hm b a h' ha; omega
    · have : a = b := by omega
      subst this; omega
  intro u
  induction u using Nat.strong_induction_on with
  | _ u ih =>
    intro hu
    have hd := Nat.div_add_mod (J u) kdim
    have hml := Nat.mod_lt (J u) hk
    by_cases h0 : u % kdim = 0
    · refine ⟨?_, fun h => absurd h0 h⟩
      rw [h0]
      by_contra hne
      have hdiv : (J u - 1) / kdim = J u / kdim := by
        rw [show J u - 1 = kdim * (J u / kdim) + (J u % kdim - 1) by omega, Nat.mul_add_div hk, Nat.div_eq_of_lt (show J u % kdim - 1 < kdim by omega), Nat.add_zero]
      have hmod : (J u - 1) % kdim = J u % kdim - 1 := by
        rw [show J u - 1 = kdim * (J u / kdim) + (J u % kdim - 1) by omega, Nat.mul_add_mod, Nat.mod_eq_of_lt (by omega)]
      obtain ⟨v, hv, hJv⟩ := hb u hu _ hdiv
      have hvu : v < u := hinc v u hv hu (by omega)
      have hv1 : v = u - 1 := by
        by_contra hne'
        have h1 := hm v (u - 1) (by omega) (by omega)
        have h2 := hm (u - 1) u (by omega) hu
        omega
      have hum : (u - 1) % kdim = kdim - 1 := by
        obtain ⟨c, hc⟩ := Nat.dvd_of_mod_eq_zero h0
        have hc0 : c ≠ 0 := by rintro rfl; omega
        obtain ⟨d, rfl⟩ : ∃ d, c = d + 1 := ⟨c - 1, by omega⟩
        rw [Nat.mul_add, Nat.mul_one] at hc
        rw [show u - 1 = kdim * d + (kdim - 1) by omega, Nat.mul_add_mod, Nat.mod_eq_of_lt (by omega)]
      have := (ih (u - 1) (by omega) (by omega)).1
      rw [← hv1, hJv, hmod, hv1, hum] at this
      omega
    · have hu0 : u ≠ 0 := by rintro rfl; simp at h0
      have hum : (u - 1) % kdim = u % kdim - 1 := by
        have h1 := Nat.div_add_mod u kdim
        have h2 := Nat.mod_lt u hk
        rw [show u - 1 = kdim * (u / kdim) + (u % kdim - 1) by omega, Nat.mul_add_mod, Nat.mod_eq_of_lt (by omega)]
      have hprev := (ih (u - 1) (by omega) (by omega)).1
      rw [hum] at hprev
      have hp := Nat.div_add_mod (J (u - 1)) kdim
      have hul := Nat.mod_lt u hk
      have hdiv : (J (u - 1) + 1) / kdim = J (u - 1) / kdim := by
        rw [show J (u - 1) + 1 = kdim * (J (u - 1) / kdim) + (J (u - 1) % kdim + 1) by omega, Nat.mul_add_div hk, Nat.div_eq_of_lt (by omega : J (u - 1) % kdim + 1 < kdim), Nat.add_zero]
      have hmod : (J (u - 1) + 1) % kdim = u % kdim := by
        rw [show J (u - 1) + 1 = kdim * (J (u - 1) / kdim) + (J (u - 1) % kdim + 1) by omega, Nat.mul_add_mod, Nat.mod_eq_of_lt (by omega)]; omega
      obtain ⟨v, hv, hJv⟩ := hb (u - 1) (by omega) _ hdiv
      have hvu : u - 1 < v := hinc (u - 1) v (by omega) hv (by omega)
      have h1 := hm (u - 1) u (by omega) hu
      have h2 : J u ≤ J v := by
        by_cases huv : u = v
        · rw [huv]
        · exact le_of_lt (hm u v (by omega) hv)
      have : J u = J (u - 1) + 1 := by omega
      exact ⟨by rw [this, hmod], fun _ => this⟩

theorem groups_skel {r kdim : Nat} (hk : 0 < kdim) (hr : kdim ∣ r) {J : Nat → Nat} (hm : ∀ a b, a < b → b < r → J a < J b)
    (hb : ∀ u < r, ∀ w, w / kdim = J u / kdim → ∃ v < r, J v = w) {u : Nat} (hu : u < r) :
    J u = J (u / kdim * kdim) / kdim * kdim + u % kdim := by
  have h := strictMono_groups hk hr hm hb
  obtain ⟨m, hm'⟩ : ∃ m, u % kdim = m := ⟨_, rfl⟩
  induction m generalizing u with
  | zero =>
    have h1 := (h u hu).1
    have h2 := Nat.div_add_mod u kdim
    have h3 := Nat.div_add_mod (J u) kdim
    rw [hm'] at h1 h2
    rw [show u / kdim * kdim = u by rw [Nat.mul_comm]; omega, hm', Nat.mul_comm]; omega
  | succ m ih =>
    have h1 := (h u hu).2 (by omega)
    have h2 := Nat.div_add_mod u kdim
    have h3 := Nat.mod_lt u hk
    have hdm : (u - 1) / kdim = u / kdim ∧ (u - 1) % kdim = m := by
      rw [show u - 1 = kdim * (u / kdim) + m by omega]
      rw [Nat.mul_add_div hk, Nat.mul_add_mod, Nat.div_eq_of_lt (show m < kdim by omega), Nat.mod_eq_of_lt (show m < kdim by omega)]
      exact ⟨rfl, rfl⟩
    have := ih (u := u - 1) (by omega) hdm.2
    rw [hdm.1, hdm.2] at this
    rw [h1, this, hm']; omega

end H2Pack.ID
