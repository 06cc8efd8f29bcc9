import Verif.Model.ULV
import Verif.Spec.ULV
import Mathlib.Data.Matrix.Block
import Mathlib.LinearAlgebra.Matrix.SchurComplement
import Mathlib.LinearAlgebra.Matrix.NonsingularInverse
import Mathlib.LinearAlgebra.Matrix.Block
import Mathlib.Tactic.Ring
import Mathlib.Tactic.NoncommRing

/-! # Linear algebra for the ULV factorizations -/

namespace H2Pack.ULV
open Matrix

section Sel
variable {K : Type} [CommRing K] {N : Nat} {ι κ : Type} [Fintype ι] [DecidableEq ι] [Fintype κ] [DecidableEq κ]

/-- The columns of the identity selected by `f`. -/
def Sel (K : Type) [CommRing K] (N : Nat) (f : ι → Nat) : Matrix (Fin N) ι K := fun r i => if (r : Nat) = f i then 1 else 0

theorem sel_orth {f : ι → Nat} (hi : Function.Injective f) (hN : ∀ i, f i < N) : (Sel K N f)ᵀ * Sel K N f = 1 := by
  ext i j
  rw [Matrix.mul_apply]
  simp only [transpose_apply, Sel]
  rw [Finset.sum_eq_single (⟨f i, hN i⟩ : Fin N)]
  · simp only [if_true, one_mul, Matrix.one_apply]
    by_cases e : i = j
    · rw [if_pos e, if_pos (by rw [e])]
    · rw [if_neg e, if_neg (fun h => e (hi h))]
  · intro r _ hr
    rw [if_neg (fun h => hr (Fin.ext h)), zero_mul]
  · intro h; exact absurd (Finset.mem_univ _) h

theorem sel_disj {f : ι → Nat} {g : κ → Nat} (h : ∀ i j, f i ≠ g j) : (Sel K N f)ᵀ * Sel K N g = 0 := by
  ext i j
  rw [Matrix.mul_apply]
  apply Finset.sum_eq_zero
  intro r _
  simp only [transpose_apply, Sel]
  by_cases e : (r : Nat) = f i
  · rw [if_neg (fun h' => h i j (e.symm.trans h')), mul_zero]
  · rw [if_neg e, zero_mul]

/-- `g` acting on the positions `f`, the identity elsewhere. -/
def lift (N : Nat) (f : ι → Nat) (g : Matrix ι ι K) : Matrix (Fin N) (Fin N) K := 1 + Sel K N f * (g - 1) * (Sel K N f)ᵀ

theorem lift_mul_sel {f : ι → Nat} (hi : Function.Injective f) (hN : ∀ i, f i < N) (g : Matrix ι ι K) :
    lift N f g * Sel K N f = Sel K N f * g := by
  unfold lift
  rw [Matrix.add_mul, Matrix.mul_assoc, sel_orth hi hN, Matrix.mul_one, Matrix.mul_sub, Matrix.one_mul, Matrix.mul_one]
  abel

theorem selT_mul_lift {f : ι → Nat} (hi : Function.Injective f) (hN : ∀ i, f i < N) (g : Matrix ι ι K) :
    (Sel K N f)ᵀ * lift N f g = g * (Sel K N f)ᵀ := by
  unfold lift
  rw [Matrix.mul_add, ← Matrix.mul_assoc, ← Matrix.mul_assoc, sel_orth hi hN, Matrix.one_mul, Matrix.sub_mul, Matrix.mul_one, Matrix.one_mul]
  abel

theorem lift_fix {f : ι → Nat} (g : Matrix ι ι K) {X : Matrix (Fin N) κ K} (h : (Sel K N f)ᵀ * X = 0) : lift N f g * X = X := by
  unfold lift
  rw [Matrix.add_mul, Matrix.one_mul, Matrix.mul_assoc, h, Matrix.mul_zero, add_zero]

theorem fix_lift {f : ι → Nat} (g : Matrix ι ι K) {X : Matrix κ (Fin N) K} (h : X * Sel K N f = 0) : X * lift N f g = X := by
  unfold lift
  rw [Matrix.mul_add, Matrix.mul_one, ← Matrix.mul_assoc, ← Matrix.mul_assoc, h, Matrix.zero_mul, Matrix.zero_mul, add_zero]

theorem lift_transpose (f : ι → Nat) (g : Matrix ι ι K) : (lift N f g)ᵀ = lift N f gᵀ := by
  unfold lift
  simp [Matrix.mul_assoc]

theorem det_lift {f : ι → Nat} (hi : Function.Injective f) (hN : ∀ i, f i < N) (g : Matrix ι ι K) : (lift N f g).det = g.det := by
  unfold lift
  rw [Matrix.mul_assoc, Matrix.det_one_add_mul_comm, Matrix.mul_assoc, sel_orth hi hN, Matrix.mul_one]
  congr 1
  abel

theorem selT_mulVec {f : ι → Nat} (hN : ∀ i, f i < N) (x : Fin N → K) (i : ι) : ((Sel K N f)ᵀ *ᵥ x) i = x ⟨f i, hN i⟩ := by
  rw [Matrix.mulVec, dotProduct, Finset.sum_eq_single (⟨f i, hN i⟩ : Fin N)]
  · simp [Sel]
  · intro r _ hr
    rw [transpose_apply, Sel, if_neg (fun h => hr (Fin.ext h)), zero_mul]
  · intro h; exact absurd (Finset.mem_univ _) h

/-- How `lift` acts on a vector. -/
theorem lift_mulVec {f : ι → Nat} (hi : Function.Injective f) (hN : ∀ i, f i < N) (g : Matrix ι ι K) (x : Fin N → K) :
    (∀ i, (lift N f g *ᵥ x) ⟨f i, hN i⟩ = (g *ᵥ fun j => x ⟨f j, hN j⟩) i) ∧
    ∀ r : Fin N, (∀ i, (r : Nat) ≠ f i) → (lift N f g *ᵥ x) r = x r := by
  have hx : (Sel K N f)ᵀ *ᵥ x = fun j => x ⟨f j, hN j⟩ := funext (selT_mulVec hN x)
  refine ⟨fun i => ?_, fun r hr => ?_⟩
  · have e : (lift N f g *ᵥ x) ⟨f i, hN i⟩ = ((Sel K N f)ᵀ *ᵥ (lift N f g *ᵥ x)) i := (selT_mulVec hN _ i).symm
    rw [e, Matrix.mulVec_mulVec, selT_mul_lift hi hN, ← Matrix.mulVec_mulVec, hx]
  · unfold lift
    rw [Matrix.add_mulVec, Matrix.one_mulVec, Matrix.mul_assoc, ← Matrix.mulVec_mulVec, Pi.add_apply]
    rw [show (Sel K N f *ᵥ (((g - 1) * (Sel K N f)ᵀ) *ᵥ x)) r = 0 from ?_, add_zero]
    rw [Matrix.mulVec, dotProduct]
    apply Finset.sum_eq_zero
    intro i _
    rw [Sel, if_neg (hr i), zero_mul]

end Sel

/-! ## Positions of a node -/

/-- Index type for `n` kept and `d` eliminated positions. -/
abbrev Ix (n d : Nat) := Fin n ⊕ Fin d

/-- Position number. -/
def pos {n d : Nat} : Ix n d → Nat
  | .inl i => i
  | .inr i => n + i

theorem pos_lt {n d : Nat} (i : Ix n d) : pos i < n + d := by
  rcases i with i | i <;> simp only [pos] <;> have := i.2 <;> omega

theorem pos_inj {n d : Nat} : Function.Injective (pos : Ix n d → Nat) := by
  rintro (i | i) (j | j) h <;> simp only [pos] at h <;> have h1 := i.2 <;> have h2 := j.2
  · exact congrArg _ (Fin.ext h)
  · omega
  · omega
  · exact congrArg _ (Fin.ext (by omega))

theorem pos_surj {n d k : Nat} (h : k < n + d) : ∃ i : Ix n d, pos i = k := by
  by_cases hk : k < n
  · exact ⟨.inl ⟨k, hk⟩, rfl⟩
  · exact ⟨.inr ⟨k - n, by omega⟩, by simp only [pos]; omega⟩

theorem sum_pos {M : Type} [AddCommMonoid M] {n d : Nat} (f : Nat → M) : ∑ i : Ix n d, f (pos i) = ∑ i ∈ Finset.range (n + d), f i := by
  rw [Fintype.sum_sum_type, Finset.sum_range_add, Finset.sum_range, Finset.sum_range]
  rfl

/-- A function of two numbers as a matrix on the positions. -/
def mat {K : Type} (n d : Nat) (f : Nat → Nat → K) : Matrix (Ix n d) (Ix n d) K := fun i j => f (pos i) (pos j)

/-- A function of two numbers as a `p`-by-`q` matrix. -/
def mf {K : Type} (p q : Nat) (f : Nat → Nat → K) : Matrix (Fin p) (Fin q) K := fun i j => f i j

/-- A function of two numbers as a matrix with rows on the positions and `q` columns. -/
def colm {K : Type} (n d q : Nat) (f : Nat → Nat → K) : Matrix (Ix n d) (Fin q) K := fun i j => f (pos i) j

/-! ## Triangular solves -/

section Tri
variable {K : Type} [Field K]

/-- The lower triangular matrix that TRSM reads. -/
def lowM (unit : Bool) (d : Nat) (l : Nat → Nat → K) : Matrix (Fin d) (Fin d) K := fun i j =>
  if (j : Nat) < i then l i j else if i = j then (if unit then 1 else l i i) else 0

/-- The upper triangular matrix that TRSM reads. -/
def upM (d : Nat) (u : Nat → Nat → K) : Matrix (Fin d) (Fin d) K := fun i j => if (i : Nat) ≤ j then u i j else 0

theorem fsub_eq (unit : Bool) (l : Nat → Nat → K) (b : Nat → K) (i : Nat) (hd : unit = false → l i i ≠ 0) :
    ∑ j ∈ Finset.range i, l i j * fsub unit l b j + (if unit then 1 else l i i) * fsub unit l b i = b i := by
  have hne : (if unit then (1 : K) else l i i) ≠ 0 := by
    cases unit
    · simpa using hd rfl
    · simp
  have e : fsub unit l b i = (b i - ∑ j ∈ Finset.range i, l i j * fsub unit l b j) / (if unit then 1 else l i i) := by
    rw [fsub, Finset.sum_range]
  generalize ∑ j ∈ Finset.range i, l i j * fsub unit l b j = S at *
  rw [e, mul_div_cancel₀ _ hne]
  ring

/-- A sum whose terms vanish after position `i`. -/
theorem sum_upto {M : Type} [AddCommMonoid M] {d i : Nat} (hi : i < d) (f : Nat → M) (h : ∀ t, i < t → t < d → f t = 0) :
    ∑ t ∈ Finset.range d, f t = ∑ t ∈ Finset.range i, f t + f i := by
  rw [← Finset.sum_range_succ]
  symm
  apply Finset.sum_subset (Finset.range_subset_range.2 hi)
  intro t h1 h2
  rw [Finset.mem_range] at h1 h2
  exact h t (by omega) h1

theorem lowM_mulVec (unit : Bool) (d : Nat) (l : Nat → Nat → K) (x : Nat → K) (i : Fin d) :
    (lowM unit d l *ᵥ fun j => x j) i = ∑ j ∈ Finset.range i, l i j * x j + (if unit then 1 else l i i) * x i := by
  rw [Matrix.mulVec, dotProduct]
  have : ∀ j : Fin d, lowM unit d l i j * x j = (fun j : Nat => (if j < i then l i j * x j else if j = i then (if unit then 1 else l i i) * x i else 0)) j := by
    intro j
    simp only [lowM]
    by_cases h1 : (j : Nat) < i
    · rw [if_pos h1, if_pos h1]
    · rw [if_neg h1, if_neg h1]
      by_cases h2 : i = j
      · subst h2; simp
      · rw [if_neg h2, if_neg (fun e => h2 (Fin.ext e.symm)), zero_mul]
  rw [Finset.sum_congr rfl (fun j _ => this j), ← Finset.sum_range (fun j : Nat => (if j < i then l i j * x j else if j = i then (if unit then 1 else l i i) * x i else 0))]
  rw [sum_upto i.2]
  · congr 1
    · apply Finset.sum_congr rfl
      intro j hj
      rw [if_pos (Finset.mem_range.1 hj)]
    · simp
  · intro t h1 _
    rw [if_neg (by omega), if_neg (by omega)]

theorem det_lowM (unit : Bool) (d : Nat) (l : Nat → Nat → K) : (lowM unit d l).det = ∏ i : Fin d, (if unit then 1 else l i i) := by
  rw [Matrix.det_of_lowerTriangular]
  · apply Finset.prod_congr rfl
    intro i _
    simp [lowM]
  · intro i j hij
    have hij : i < j := hij
    simp only [lowM]
    rw [if_neg (by have : (i : Nat) < j := hij; omega), if_neg (ne_of_lt hij)]

theorem det_upM (d : Nat) (u : Nat → Nat → K) : (upM d u).det = ∏ i : Fin d, u i i := by
  rw [Matrix.det_of_upperTriangular]
  · apply Finset.prod_congr rfl
    intro i _
    simp [upM]
  · intro i j hij
    have hij : j < i := hij
    simp only [upM]
    rw [if_neg (by have : (j : Nat) < i := hij; omega)]

theorem upM_eq (d : Nat) (u : Nat → Nat → K) : upM d u = (lowM false d (fun r c => u c r))ᵀ := by
  ext i j
  simp only [upM, lowM, transpose_apply]
  by_cases h : (i : Nat) < j
  · rw [if_pos (by omega), if_pos h]
  · by_cases e : j = i
    · subst e; simp
    · rw [if_neg, if_neg h, if_neg e]
      intro h'
      exact e (Fin.ext (by omega))

theorem fsub_mulVec (unit : Bool) (d : Nat) (l : Nat → Nat → K) (b : Nat → K) (hd : unit = false → ∀ k < d, l k k ≠ 0) :
    lowM unit d l *ᵥ (fun i : Fin d => fsub unit l b i) = fun i : Fin d => b i := by
  funext i
  rw [lowM_mulVec unit d l (fsub unit l b) i, fsub_eq unit l b i (fun h => hd h i i.2)]

theorem isUnit_lowM (unit : Bool) (d : Nat) (l : Nat → Nat → K) (hd : unit = false → ∀ k < d, l k k ≠ 0) : IsUnit (lowM unit d l).det := by
  rw [det_lowM, isUnit_iff_ne_zero, Finset.prod_ne_zero_iff]
  intro i _
  cases unit
  · simpa using hd rfl i i.2
  · simp

theorem isUnit_upM (d : Nat) (u : Nat → Nat → K) (hd : ∀ k < d, u k k ≠ 0) : IsUnit (upM d u).det := by
  rw [upM_eq, det_transpose]
  exact isUnit_lowM false d _ (fun _ => hd)

/-- Forward substitution multiplies with the inverse. -/
theorem fsub_inv (unit : Bool) (d : Nat) (l : Nat → Nat → K) (b : Nat → K) (hd : unit = false → ∀ k < d, l k k ≠ 0) (i : Fin d) :
    fsub unit l b i = ((lowM unit d l)⁻¹ *ᵥ fun i : Fin d => b i) i := by
  have h := fsub_mulVec unit d l b hd
  rw [← h, Matrix.mulVec_mulVec, Matrix.nonsing_inv_mul _ (isUnit_lowM unit d l hd), Matrix.one_mulVec]

theorem bsub_inv (d : Nat) (u : Nat → Nat → K) (b : Nat → K) (hd : ∀ k < d, u k k ≠ 0) (i : Fin d) :
    bsub d u b i = ((upM d u)⁻¹ *ᵥ fun i : Fin d => b i) i := by
  have h : upM d u *ᵥ (fun i : Fin d => bsub d u b i) = fun i : Fin d => b i := by
    funext i
    have e := fsub_eq false (fun r c => u (d - 1 - r) (d - 1 - c)) (fun r => b (d - 1 - r)) (d - 1 - i) (fun _ => by
      have := i.2
      rw [show d - 1 - (d - 1 - (i : Nat)) = i by omega]; exact hd i i.2)
    have hi := i.2
    simp only [show d - 1 - (d - 1 - (i : Nat)) = i by omega, if_false, Bool.false_eq_true] at e
    rw [← e]
    rw [Matrix.mulVec, dotProduct]
    simp only [upM]
    rw [← Finset.sum_range (fun j : Nat => (if (i : Nat) ≤ j then u i j else 0) * bsub d u b j), ← Finset.sum_range_reflect]
    simp only [bsub]
    rw [sum_upto (show d - 1 - (i : Nat) < d by omega)]
    · congr 1
      · apply Finset.sum_congr rfl
        intro j hj
        have := Finset.mem_range.1 hj
        rw [if_pos (by omega), show d - 1 - (d - 1 - j) = j by omega]
      · rw [if_pos (by omega)]
        rw [show d - 1 - (d - 1 - (i : Nat)) = i by omega]
    · intro t h1 _
      rw [if_neg (by omega), zero_mul]
  rw [← h, Matrix.mulVec_mulVec, Matrix.nonsing_inv_mul _ (isUnit_upM d u hd), Matrix.one_mulVec]

/-- TRSM with several right-hand sides. -/
theorem fsub_cols (unit : Bool) (d q : Nat) (l : Nat → Nat → K) (B : Nat → Nat → K) (hd : unit = false → ∀ k < d, l k k ≠ 0) :
    mf d q (fun i j => fsub unit l (fun r => B r j) i) = (lowM unit d l)⁻¹ * mf d q B := by
  ext i j
  rw [mf, fsub_inv unit d l _ hd i, Matrix.mul_apply]
  rfl

/-- TRSM from the right with an upper triangular matrix. -/
theorem fsub_rows (p d : Nat) (u : Nat → Nat → K) (B : Nat → Nat → K) (hd : ∀ k < d, u k k ≠ 0) :
    mf p d (fun i j => fsub false (fun r c => u c r) (fun c => B i c) j) = mf p d B * (upM d u)⁻¹ := by
  ext i j
  rw [mf, fsub_inv false d (fun r c => u c r) _ (fun _ => hd) j, Matrix.mul_apply, upM_eq, ← Matrix.transpose_nonsing_inv]
  simp only [Matrix.mulVec, dotProduct, transpose_apply]
  apply Finset.sum_congr rfl
  intro t _
  rw [mul_comm]
  rfl

/-! ## Row permutations -/

/-- A permutation of `0..d-1`. -/
def IsPerm (d : Nat) (p : Nat → Nat) : Prop := (∀ i < d, p i < d) ∧ ∀ i < d, ∀ j < d, p i = p j → i = j

theorem permOf_spec (d : Nat) (ipiv : Nat → Nat) (hp : ∀ k < d, k + 1 ≤ ipiv k ∧ ipiv k ≤ d) (a : Nat → Nat → K) :
    IsPerm d (permOf d ipiv) ∧ ∀ i j, interchange d ipiv a i j = a (permOf d ipiv i) j := by
  have key : ∀ c, c ≤ d →
      let perm := (List.range c).foldl (fun perm k =>
        let piv := ipiv k - 1
        let p0 := perm k
        let p1 := perm piv
        Function.update (Function.update perm piv p0) k p1) (fun k => k)
      IsPerm d perm ∧ ∀ i j, (List.range c).foldl (fun a k i j => if i = k then a (ipiv k - 1) j else if i = ipiv k - 1 then a k j else a i j) a i j = a (perm i) j := by
    intro c
    induction c with
    | zero => intro _; exact ⟨⟨fun i hi => hi, fun i _ j _ h => h⟩, fun i j => rfl⟩
    | succ c ih =>
      intro hc
      obtain ⟨⟨i1, i2⟩, i3⟩ := ih (by omega)
      dsimp only at i1 i2 i3 ⊢
      simp only [List.range_succ, List.foldl_append, List.foldl_cons, List.foldl_nil]
      generalize (List.range c).foldl (fun perm k => Function.update (Function.update perm (ipiv k - 1) (perm k)) k (perm (ipiv k - 1))) (fun k => k) = P at *
      have hk := hp c (by omega)
      have hval : ∀ i, Function.update (Function.update P (ipiv c - 1) (P c)) c (P (ipiv c - 1)) i =
          P (if i = c then ipiv c - 1 else if i = ipiv c - 1 then c else i) := by
        intro i
        by_cases h1 : i = c
        · subst h1; rw [Function.update_self, if_pos rfl]
        · rw [Function.update_of_ne h1, if_neg h1]
          by_cases h2 : i = ipiv c - 1
          · subst h2; rw [Function.update_self, if_pos rfl]
          · rw [Function.update_of_ne h2, if_neg h2]
      refine ⟨⟨fun i hi => ?_, fun i hi j hj => ?_⟩, fun i j => ?_⟩
      · rw [hval]
        apply i1
        split
        · omega
        · split <;> omega
      · rw [hval, hval]
        intro h
        have := i2 _ (by split; omega; split <;> omega) _ (by split; omega; split <;> omega) h
        split at this <;> split at this <;> (try split at this) <;> (try split at this) <;> omega
      · rw [hval]
        by_cases h1 : i = c
        · rw [if_pos h1, if_pos h1, i3]
        · rw [if_neg h1, if_neg h1]
          by_cases h2 : i = ipiv c - 1
          · rw [if_pos h2, if_pos h2, i3]
          · rw [if_neg h2, if_neg h2, i3]
  exact key d (le_refl d)

/-- The permutation matrix with `(P x)_i = x_{p i}`. -/
def permM (K : Type) [Field K] (d : Nat) (p : Nat → Nat) : Matrix (Fin d) (Fin d) K := fun i j => if p i = j then 1 else 0

theorem permM_mul {d q : Nat} {p : Nat → Nat} (hp : IsPerm d p) (a : Nat → Nat → K) : permM K d p * mf d q a = mf d q (fun i j => a (p i) j) := by
  ext i j
  rw [Matrix.mul_apply, Finset.sum_eq_single (⟨p i, hp.1 i i.2⟩ : Fin d)]
  · simp [permM, mf]
  · intro t _ ht
    rw [permM, if_neg (fun h => ht (Fin.ext h.symm)), zero_mul]
  · intro h; exact absurd (Finset.mem_univ _) h

theorem permM_mulVec {d : Nat} {p : Nat → Nat} (hp : IsPerm d p) (a : Nat → K) (i : Fin d) : (permM K d p *ᵥ fun j : Fin d => a j) i = a (p i) := by
  rw [Matrix.mulVec, dotProduct, Finset.sum_eq_single (⟨p i, hp.1 i i.2⟩ : Fin d)]
  · simp [permM]
  · intro t _ ht
    rw [permM, if_neg (fun h => ht (Fin.ext h.symm)), zero_mul]
  · intro h; exact absurd (Finset.mem_univ _) h

theorem permM_orth {d : Nat} {p : Nat → Nat} (hp : IsPerm d p) : permM K d p * (permM K d p)ᵀ = 1 := by
  ext i j
  rw [Matrix.mul_apply, Finset.sum_eq_single (⟨p i, hp.1 i i.2⟩ : Fin d)]
  · simp only [permM, transpose_apply, if_true, one_mul, Matrix.one_apply]
    by_cases e : i = j
    · rw [if_pos e, if_pos (by rw [e])]
    · rw [if_neg e, if_neg]
      intro h
      exact e (Fin.ext (hp.2 j j.2 i i.2 h).symm)
  · intro t _ ht
    rw [permM, if_neg (fun h => ht (Fin.ext h.symm)), zero_mul]
  · intro h; exact absurd (Finset.mem_univ _) h

theorem diagProd_eq (d : Nat) (a : Nat → Nat → K) : diagProd d a = ∏ i : Fin d, a i i := by
  unfold diagProd
  rw [← Finset.prod_range (fun i => a i i)]
  induction d with
  | zero => rfl
  | succ d ih => rw [List.range_succ, List.foldl_append, ih, Finset.prod_range_succ]; rfl

end Tri

end H2Pack.ULV
