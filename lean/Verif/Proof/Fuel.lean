import Verif.Proof.ID3

/-!
# More fuel does not change an outcome
-/

namespace H2Pack

/-- `b` is the outcome of the same program with more fuel. -/
def Res.Le {α : Type} (a b : Res α) : Prop := a = .diverge ∨ b = a

namespace Res

theorem Le.rfl {α : Type} {a : Res α} : a.Le a := Or.inr (Eq.refl _)

theorem Le.of_div {α : Type} {b : Res α} : (Res.diverge : Res α).Le b := Or.inl (Eq.refl _)

theorem Le.trans {α : Type} {a b c : Res α} (h : a.Le b) (h' : b.Le c) : a.Le c := by
  rcases h with h | h
  · exact Or.inl h
  · subst h; exact h'

theorem Le.bind {α β : Type} {a b : Res α} {f g : α → Res β} (h : a.Le b) (h' : ∀ x, (f x).Le (g x)) : (a >>= f).Le (b >>= g) := by
  rcases h with h | h
  · subst h; exact Or.inl (Eq.refl _)
  · subst h
    cases b with
    | ok x => exact h' x
    | ub => exact Or.inr (Eq.refl _)
    | diverge => exact Or.inl (Eq.refl _)

theorem Le.ite {α : Type} {c : Prop} [Decidable c] {a b a' b' : Res α} (h : a.Le a') (h' : b.Le b') : (if c then a else b).Le (if c then a' else b') := by
  split
  · exact h
  · exact h'

theorem Le.ok {α : Type} {a b : Res α} {x : α} (h : a.Le b) (ha : a = .ok x) : b = .ok x := by
  subst ha
  rcases h with h | h
  · cases h
  · exact h

end Res

namespace CSR

theorem scanUp_mono (n : Int) (key : Int → Int) (mid : Int) : ∀ fuel i, (scanUp n key mid fuel i).Le (scanUp n key mid (fuel + 1) i) := by
  intro fuel
  induction fuel with
  | zero => intro i; exact Res.Le.of_div
  | succ k ih =>
    intro i
    rw [scanUp, scanUp.eq_2 n key mid i (k + 1)]
    exact Res.Le.ite .rfl (Res.Le.ite (ih _) .rfl)

theorem scanDown_mono (n : Int) (key : Int → Int) (mid : Int) : ∀ fuel i, (scanDown n key mid fuel i).Le (scanDown n key mid (fuel + 1) i) := by
  intro fuel
  induction fuel with
  | zero => intro i; exact Res.Le.of_div
  | succ k ih =>
    intro i
    rw [scanDown, scanDown.eq_2 n key mid i (k + 1)]
    exact Res.Le.ite .rfl (Res.Le.ite (ih _) .rfl)

theorem partLoop_mono (n mid : Int) : ∀ fuel (kv : KV) i j, (partLoop n mid fuel kv i j).Le (partLoop n mid (fuel + 1) kv i j) := by
  intro fuel
  induction fuel with
  | zero => intro kv i j; exact Res.Le.of_div
  | succ k ih =>
    intro kv i j
    rw [partLoop, partLoop.eq_2 n mid kv i j (k + 1)]
    exact Res.Le.ite (Res.Le.bind (scanUp_mono _ _ _ _ _) fun i => Res.Le.bind (scanDown_mono _ _ _ _ _) fun j => Res.Le.ite (ih _ _ _) (ih _ _ _)) .rfl

theorem qsort_mono (n : Int) : ∀ fuel (kv : KV) l r, (qsort n fuel kv l r).Le (qsort n (fuel + 1) kv l r) := by
  intro fuel
  induction fuel with
  | zero => intro kv i j; exact Res.Le.of_div
  | succ k ih =>
    intro kv l r
    rw [qsort, qsort.eq_2 n kv l r (k + 1)]
    dsimp only
    refine Res.Le.ite .rfl (Res.Le.bind (partLoop_mono _ _ _ _ _ _) fun p => ?_)
    by_cases h1 : p.2.1 < r
    · simp only [h1, if_true]
      exact Res.Le.bind (ih _ _ _) fun kv => Res.Le.ite (ih _ _ _) .rfl
    · simp only [h1, if_false]
      exact Res.Le.bind .rfl fun kv => Res.Le.ite (ih _ _ _) .rfl

end CSR

namespace ID
variable {K : Type}

theorem chunks_mono (O : Ops K) (kdim vn b sc rn sz : Nat) (V W : Nat → Nat → K) : ∀ fuel off R,
    (chunks O kdim vn b sc rn sz V W fuel off R).Le (chunks O kdim vn b sc rn sz V W (fuel + 1) off R) := by
  intro fuel
  induction fuel with
  | zero => intro off R; exact Res.Le.of_div
  | succ k ih =>
    intro off R
    rw [chunks, chunks.eq_2 O kdim vn b sc rn sz V W off R (k + 1)]
    exact Res.Le.ite (ih _ _) .rfl

theorem qrkLoop_mono (O : Ops K) (sz nrow ncol kdim : Nat) (stop : K) (sr : Int) (V0 : Nat → Nat → K) (fuel : Nat) : ∀ n i s,
    (qrkLoop O sz nrow ncol kdim stop sr V0 fuel n i s).Le (qrkLoop O sz nrow ncol kdim stop sr V0 (fuel + 1) n i s) := by
  intro n
  induction n with
  | zero => intro i s; exact .rfl
  | succ n ih =>
    intro i s
    rw [qrkLoop, qrkLoop]
    refine Res.Le.ite .rfl (Res.Le.bind ?_ fun s => ih _ _)
    unfold qrkStep
    dsimp only
    exact Res.Le.bind .rfl fun q => Res.Le.bind (chunks_mono _ _ _ _ _ _ _ _ _ _ _ _) fun R => .rfl

theorem idQR_mono (O : Ops K) (sz nrow ncol kdim : Nat) (st : Stop K) (R : Nat → Nat → K) (E : IDEnv K) (fuel : Nat) :
    (idQR O sz nrow ncol kdim st R E fuel).Le (idQR O sz nrow ncol kdim st R E (fuel + 1)) := by
  unfold idQR partialPivotQRk
  dsimp only
  by_cases h1 : kdim = 1
  · simp only [h1, if_true]
    exact .rfl
  · simp only [h1, if_false]
    exact Res.Le.bind (Res.Le.bind (qrkLoop_mono _ _ _ _ _ _ _ _ _ _ _ _) fun _ => .rfl) fun _ => .rfl

theorem idCompress_mono (O : Ops K) (sz nrow ncol kdim : Nat) (st : Stop K) (A : Nat → Nat → K) (wantU : Bool) (E : IDEnv K) (fuel : Nat) :
    (idCompress O sz nrow ncol kdim st A wantU E fuel).Le (idCompress O sz nrow ncol kdim st A wantU E (fuel + 1)) := by
  unfold idCompress
  dsimp only
  exact Res.Le.bind (idQR_mono _ _ _ _ _ _ _ _ _) fun q => Res.Le.bind (CSR.qsort_mono _ _ _ _ _) fun kv => .rfl

/-- A result for one fuel is the result. -/
theorem idCompress_returns {O : Ops K} {sz nrow ncol kdim : Nat} {st : Stop K} {A : Nat → Nat → K} {wantU : Bool} {E : IDEnv K} {fuel : Nat}
    {x : ((Nat → Nat) × Nat) × H2Pack.Dense.Mat K} (h : idCompress O sz nrow ncol kdim st A wantU E fuel = .ok x) :
    ∀ f ≥ fuel, idCompress O sz nrow ncol kdim st A wantU E f = .ok x := by
  intro f hf
  induction f, hf using Nat.le_induction with
  | base => exact h
  | succ f _ ih => exact (idCompress_mono _ _ _ _ _ _ _ _ _ _).ok ih

/-- The decomposition of a matrix without rows accesses an element of an empty index list. -/
theorem idCompress_empty (O : Ops K) (sz ncol kdim : Nat) (hk : 0 < kdim) (st : Stop K) (A : Nat → Nat → K) (wantU : Bool) (E : IDEnv K) (fuel : Nat) (x : ((Nat → Nat) × Nat) × H2Pack.Dense.Mat K) :
    idCompress O sz 0 ncol kdim st A wantU E fuel ≠ .ok x := by
  intro h
  unfold idCompress at h
  cases hq : idQR O sz ncol 0 kdim st A E fuel with
  | ub => rw [hq] at h; simp at h
  | diverge => rw [hq] at h; simp at h
  | ok q =>
    have hr := (idQR_perm hk hq).2.1
    rw [hq, Res.bind_ok] at h
    have : ∀ kv, CSR.qsort (κ := Int) (ν := Int) (0 : Nat) fuel kv 0 ((q.1 : Int) - 1) ≠ .ok kv ∧ (CSR.qsort (κ := Int) (ν := Int) (0 : Nat) fuel kv 0 ((q.1 : Int) - 1) = .ub ∨ CSR.qsort (κ := Int) (ν := Int) (0 : Nat) fuel kv 0 ((q.1 : Int) - 1) = .diverge) := by
      intro kv
      cases fuel with
      | zero => exact ⟨by simp [CSR.qsort], Or.inr rfl⟩
      | succ k =>
        have : CSR.qsort (κ := Int) (ν := Int) (0 : Nat) (k + 1) kv 0 ((q.1 : Int) - 1) = .ub := by
          rw [CSR.qsort]
          dsimp only
          rw [if_pos]
          omega
        exact ⟨by rw [this]; simp, Or.inl this⟩
    dsimp only at h
    rcases (this ⟨fun k => q.2.1 k.toNat, fun k => k⟩).2 with h1 | h1
    · rw [h1] at h; simp at h
    · rw [h1] at h; simp at h

end ID
end H2Pack
