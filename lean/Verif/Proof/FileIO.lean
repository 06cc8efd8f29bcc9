import Verif.Model.FileIO
import Verif.Props.MatvecJIT
import Verif.Props.Metadata
import Mathlib.Data.Nat.Digits.Lemmas

set_option linter.unusedSectionVars false

/-! # Lemmas for file input and output: hexadecimal text, scripts, reader -/

namespace H2Pack.IO
open H2Pack.MV
open H2Pack.Part (Arr kids ClusterTree)

/-! ## Hexadecimal text -/

theorem hexValue_hexDigits (n : Nat) : hexValue (hexDigits n) = n := by
  unfold hexValue hexDigits
  split
  · subst_vars; rfl
  · rw [List.foldl_reverse]
    have := Nat.ofDigits_digits 16 n
    rw [Nat.ofDigits_eq_foldr] at this
    conv_rhs => rw [← this]
    congr 1
    funext x y
    show y * 16 + x = _
    push_cast
    ring

theorem hexDigits_length (n : Nat) (hn : n < 2 ^ 64) : (hexDigits n).length ≤ 16 ∧ ((hexDigits n).length = 16 ↔ 2 ^ 60 ≤ n) := by
  unfold hexDigits
  split
  · subst_vars; simp
  · have h1 := @Nat.digits_length_le_iff 16 16 (by norm_num) n
    have h2 := @Nat.digits_length_le_iff 16 15 (by norm_num) n
    have e1 : (16 : Nat) ^ 16 = 2 ^ 64 := by norm_num
    have e2 : (16 : Nat) ^ 15 = 2 ^ 60 := by norm_num
    rw [e1] at h1
    rw [e2] at h2
    rw [List.length_reverse]
    have := h1.2 hn
    refine ⟨this, ?_⟩
    constructor
    · intro h; by_contra hc; have := h2.2 (by omega); omega
    · intro h; by_contra hc; have := h2.1 (by omega); omega

theorem hexToDouble_hexDigits (n : Nat) (hn : n < 2 ^ 64) : hexToDouble (hexDigits n) = if 2 ^ 60 ≤ n then some n else none := by
  obtain ⟨h1, h2⟩ := hexDigits_length n hn
  unfold hexToDouble
  by_cases h : 2 ^ 60 ≤ n
  · rw [if_pos h, h2.2 h, if_pos (by norm_num), if_pos (by norm_num), hexValue_hexDigits]
  · rw [if_neg h]
    split
    · split
      · exfalso; apply h; rw [← h2]; omega
      · rfl
    · rfl

/-! ## `mapM` in `Option` -/

theorem mapM_some {α β : Type} (L : List α) (f : α → Option β) (g : α → β) (h : ∀ x ∈ L, f x = some (g x)) : L.mapM f = some (L.map g) := by
  induction L with
  | nil => rfl
  | cons x L ih =>
    rw [List.mapM_cons, h x (by simp), ih (fun y hy => h y (by simp [hy]))]
    rfl

theorem mapM_none {α β : Type} (L : List α) (f : α → Option β) (x : α) (hx : x ∈ L) (h : f x = none) : L.mapM f = none := by
  induction L with
  | nil => simp at hx
  | cons y L ih =>
    rw [List.mapM_cons]
    rcases List.mem_cons.1 hx with e | e
    · rw [← e, h]; rfl
    · rw [ih e]
      cases f y <;> rfl

section
variable {K : Type}

/-- A section of the file. -/
theorem rows_eq {β : Type} {lines pre sec post : List (Line K)} {curr n : Nat} {f : Line K → Option β} (hl : lines = pre ++ sec ++ post)
    (hc : curr = pre.length) (hn : n = sec.length) (g : Line K → β) (h : ∀ l ∈ sec, f l = some (g l)) :
    rows lines curr n f = some (sec.map g) := by
  unfold rows
  have : ∀ i ∈ List.range n, (lines[curr + i]? >>= f) = some (g (sec.getD i [])) := by
    intro i hi
    rw [List.mem_range] at hi
    subst hl hc hn
    rw [List.append_assoc, List.getElem?_append_right (by omega), Nat.add_sub_cancel_left, List.getElem?_append_left hi]
    rw [List.getElem?_eq_getElem hi, List.getD_eq_getElem?_getD, List.getElem?_eq_getElem hi]
    exact h _ (List.getElem_mem hi)
  rw [mapM_some _ _ _ this, hn]
  congr 1
  apply List.ext_getElem
  · simp
  · intro i h1 h2
    simp only [List.length_map, List.length_range] at h1
    simp [List.getD_eq_getElem?_getD, List.getElem?_eq_getElem h1]

theorem rows_range {β : Type} {lines pre post : List (Line K)} {curr n : Nat} {f : Line K → Option β} {enc : Nat → Line K} (g : Nat → β)
    (hl : lines = pre ++ (List.range n).map enc ++ post) (hc : curr = pre.length) (h : ∀ i < n, f (enc i) = some (g i)) :
    rows lines curr n f = some ((List.range n).map g) := by
  unfold rows
  apply mapM_some
  intro i hi
  rw [List.mem_range] at hi
  subst hl hc
  rw [List.append_assoc, List.getElem?_append_right (by omega), Nat.add_sub_cancel_left, List.getElem?_append_left (by simpa using hi)]
  simp [hi, h i hi]

theorem rows_none {β : Type} {lines pre post : List (Line K)} {curr n : Nat} {f : Line K → Option β} {enc : Nat → Line K}
    (hl : lines = pre ++ (List.range n).map enc ++ post) (hc : curr = pre.length) (i : Nat) (hi : i < n) (h : f (enc i) = none) :
    rows lines curr n f = none := by
  unfold rows
  apply mapM_none _ _ i (List.mem_range.2 hi)
  subst hl hc
  rw [List.append_assoc, List.getElem?_append_right (by omega), Nat.add_sub_cancel_left, List.getElem?_append_left (by simpa using hi)]
  simp [hi, h]

theorem fieldInt_eq (l : Line K) (k : Nat) (i : Int) (h : l[k]? = some (.int i)) : fieldInt l k = some i := by
  unfold fieldInt; rw [h]

/-! ## The reader -/

/-- `p` consumes exactly the tokens `t` and the numbers `b` and returns `a`. -/
def Feeds {α : Type} (p : Rd K α) (t : List (Tok K)) (b : List K) (a : α) : Prop :=
  ∀ tr br, p.run (t ++ tr, b ++ br) = some (a, (tr, br))

theorem Feeds.pure {α : Type} (a : α) : Feeds (pure a : Rd K α) [] [] a := fun _ _ => rfl

theorem Feeds.bind {α β : Type} {p : Rd K α} {f : α → Rd K β} {t1 t2 : List (Tok K)} {b1 b2 : List K} {a : α} {c : β}
    (h1 : Feeds p t1 b1 a) (h2 : Feeds (f a) t2 b2 c) : Feeds (p >>= f) (t1 ++ t2) (b1 ++ b2) c := by
  intro tr br
  rw [StateT.run_bind, List.append_assoc, List.append_assoc, h1]
  exact h2 tr br

theorem Feeds.cons {α β : Type} {p : Rd K α} {f : α → Rd K β} {t : Tok K} {t2 : List (Tok K)} {b2 : List K} {a : α} {c : β}
    (h1 : Feeds p [t] [] a) (h2 : Feeds (f a) t2 b2 c) : Feeds (p >>= f) (t :: t2) b2 c := Feeds.bind h1 h2

theorem Feeds.skip {α β : Type} {p : Rd K α} {f : α → Rd K β} {t2 : List (Tok K)} {b2 : List K} {a : α} {c : β}
    (h1 : Feeds p [] [] a) (h2 : Feeds (f a) t2 b2 c) : Feeds (p >>= f) t2 b2 c := Feeds.bind h1 h2

theorem feeds_int (i : Int) : Feeds (rdInt : Rd K Int) [.int i] [] i := fun _ _ => rfl

theorem feeds_nat (n : Nat) : Feeds (rdNat : Rd K Nat) [.int (n : Int)] [] n := by
  intro tr br
  show (if (0 : Int) ≤ (n : Int) then some ((n : Int).toNat, (tr, br)) else none) = _
  rw [if_pos (Int.natCast_nonneg n)]; rfl

theorem feeds_hex (d : List Nat) : Feeds (rdHex : Rd K Nat) [.hex d] [] (hexValue d) := fun _ _ => rfl

theorem feeds_exp (x : K) : Feeds (rdExp : Rd K K) [.exp x] [] x := fun _ _ => rfl

theorem feeds_bound {b : Bool} (h : b = true) : Feeds (inBounds b : Rd K Unit) [] [] () := by
  subst h; intro tr br; rfl

theorem feeds_fread (d : List K) {n : Nat} (h : n = d.length) : Feeds (fread n) [] d d := by
  intro tr br
  subst h
  show (if d.length ≤ (d ++ br).length then some ((d ++ br).take d.length, (([] : List (Tok K)) ++ tr, (d ++ br).drop d.length)) else none) = _
  rw [if_pos (by simp)]
  simp

/-- A loop. -/
theorem feeds_range {σ : Type} (body : σ → Nat → Rd K σ) (t : Nat → List (Tok K)) (b : Nat → List K) (Inv : Nat → σ → Prop) (n : Nat)
    (s0 : σ) (h0 : Inv 0 s0) (step : ∀ m < n, ∀ s, Inv m s → ∃ s', Feeds (body s m) (t m) (b m) s' ∧ Inv (m + 1) s') :
    ∃ s, Feeds ((List.range n).foldlM body s0) ((List.range n).flatMap t) ((List.range n).flatMap b) s ∧ Inv n s := by
  induction n with
  | zero => exact ⟨s0, Feeds.pure s0, h0⟩
  | succ n ih =>
    obtain ⟨s, h1, h2⟩ := ih (fun m hm => step m (by omega))
    obtain ⟨s', h3, h4⟩ := step n (by omega) s h2
    refine ⟨s', ?_, h4⟩
    rw [List.range_succ, List.foldlM_append, List.flatMap_append, List.flatMap_append]
    refine Feeds.bind h1 ?_
    simp only [List.foldlM_cons, List.foldlM_nil, List.flatMap_cons, List.flatMap_nil]
    exact Feeds.bind h3 (Feeds.pure s')

/-- A loop that starts at `s`. -/
theorem feeds_range' {σ : Type} (body : σ → Nat → Rd K σ) (t : Nat → List (Tok K)) (Inv : Nat → σ → Prop) (s n : Nat)
    (s0 : σ) (h0 : Inv s s0) (step : ∀ m, s ≤ m → m < s + n → ∀ x, Inv m x → ∃ x', Feeds (body x m) (t m) [] x' ∧ Inv (m + 1) x') :
    ∃ x, Feeds ((List.range' s n).foldlM body s0) ((List.range' s n).flatMap t) [] x ∧ Inv (s + n) x := by
  induction n with
  | zero => exact ⟨s0, Feeds.pure s0, h0⟩
  | succ n ih =>
    obtain ⟨x, h1, h2⟩ := ih (fun m hm hm' => step m hm (by omega))
    obtain ⟨x', h3, h4⟩ := step (s + n) (by omega) (by omega) x h2
    refine ⟨x', ?_, h4⟩
    rw [List.range'_1_concat, List.foldlM_append, List.flatMap_append]
    refine Feeds.bind h1 ?_
    simp only [List.foldlM_cons, List.foldlM_nil, List.flatMap_cons, List.flatMap_nil, List.append_nil]
    have := Feeds.bind h3 (Feeds.pure (K := K) x')
    simpa using this

theorem flatMap_nil' (n : Nat) : (List.range n).flatMap (fun _ => ([] : List K)) = [] := by simp

end

end H2Pack.IO
