import Verif.Proof.AFNP2
import Verif.Proof.Lapack
import Verif.Proof.Lapack2
import Verif.Props.AFN
import Mathlib.Tactic.IntervalCases
import Mathlib.Tactic.NormNum

/-! # C68: the AFN preconditioner -/

namespace H2Pack.AFN
open H2Pack.ULV Finset Matrix

theorem order_facts {n : Nat} {perm : Nat → Nat} (h : IsOrder n perm) :
    (∀ i < n, perm i < n) ∧ ∀ i < n, ∀ j < n, perm i = perm j → i = j := by
  refine ⟨fun i hi => ?_, fun i hi j hj hij => ?_⟩
  · have : perm i ∈ (List.range n).map perm := List.mem_map_of_mem (List.mem_range.2 hi)
    exact List.mem_range.1 (h.mem_iff.1 this)
  · have nd : ((List.range n).map perm).Nodup := h.nodup_iff.2 List.nodup_range
    exact List.inj_on_of_nodup_map nd (List.mem_range.2 hi) (List.mem_range.2 hj) hij

theorem fold_scatter {perm : Nat → Nat} {py y0 : Nat → ℝ} : ∀ {n : Nat}, (∀ i < n, ∀ j < n, perm i = perm j → i = j) →
    (∀ i < n, (List.range n).foldl (fun y i => Function.update y (perm i) (py i)) y0 (perm i) = py i) ∧
    ∀ v, (∀ i < n, perm i ≠ v) → (List.range n).foldl (fun y i => Function.update y (perm i) (py i)) y0 v = y0 v := by
  intro n
  induction n with
  | zero => intro _; exact ⟨fun i hi => absurd hi (by omega), fun v _ => rfl⟩
  | succ n ih =>
    intro h
    obtain ⟨a, b⟩ := ih fun i hi j hj => h i (by omega) j (by omega)
    rw [List.range_succ, List.foldl_append]
    refine ⟨fun i hi => ?_, fun v hv => ?_⟩
    · rcases Nat.lt_or_ge i n with h1 | h1
      · rw [List.foldl_cons, List.foldl_nil, Function.update_of_ne, a i h1]
        intro e
        exact absurd (h i (by omega) n (by omega) e) (by omega)
      · have : i = n := by omega
        subst this
        rw [List.foldl_cons, List.foldl_nil, Function.update_self]
    · rw [List.foldl_cons, List.foldl_nil, Function.update_of_ne (hv n (by omega)).symm, b v fun i hi => hv i (by omega)]

/-- The order of the points as a bijection between block positions and points. -/
theorem order_equiv {n n1 : Nat} {perm : Nat → Nat} (h : IsOrder n perm) (hn : n1 ≤ n) :
    ∃ e : Fin n1 ⊕ Fin (n - n1) ≃ Fin n, ∀ s, ((e s : Fin n) : Nat) = perm (bpos n1 (n - n1) s) := by
  obtain ⟨h1, h2⟩ := order_facts h
  have hb : ∀ s, bpos n1 (n - n1) s < n := by
    intro s
    cases s with
    | inl i => show (i : Nat) < n; omega
    | inr j => show n1 + (j : Nat) < n; omega
  have hbi : ∀ s t, bpos n1 (n - n1) s = bpos n1 (n - n1) t → s = t := by
    intro s t hst
    cases s with
    | inl i => cases t with
      | inl j => exact congrArg Sum.inl (Fin.ext hst)
      | inr j =>
        have : (i : Nat) = n1 + (j : Nat) := hst
        omega
    | inr i => cases t with
      | inl j =>
        have : n1 + (i : Nat) = (j : Nat) := hst
        omega
      | inr j =>
        have : n1 + (i : Nat) = n1 + (j : Nat) := hst
        exact congrArg Sum.inr (Fin.ext (by omega))
  let f : Fin n1 ⊕ Fin (n - n1) → Fin n := fun s => ⟨perm (bpos n1 (n - n1) s), h1 _ (hb s)⟩
  have hf : Function.Injective f := by
    intro s t hst
    exact hbi s t (h2 _ (hb s) _ (hb t) (congrArg Fin.val hst))
  have hcard : Fintype.card (Fin n1 ⊕ Fin (n - n1)) = Fintype.card (Fin n) := by
    rw [Fintype.card_sum, Fintype.card_fin, Fintype.card_fin, Fintype.card_fin]; omega
  exact ⟨Equiv.ofBijective f ((Fintype.bijective_iff_injective_and_card f).2 ⟨hf, hcard⟩), fun s => rfl⟩

theorem kmat_blocks {kf : (Nat → ℝ) → (Nat → ℝ) → ℝ} (hk : ∀ x y, kf x y = kf y x) (mu : ℝ) {n n1 : Nat} (coord : Nat → Nat → ℝ) {perm : Nat → Nat}
    {e : Fin n1 ⊕ Fin (n - n1) ≃ Fin n} (he : ∀ s, ((e s : Fin n) : Nat) = perm (bpos n1 (n - n1) s)) :
    (kmat kf mu n coord).submatrix e e =
      fromBlocks (A11 kf mu n1 fun i d => coord d (perm i)) (A12 kf n1 (n - n1) fun i d => coord d (perm i))
        (A12 kf n1 (n - n1) fun i d => coord d (perm i))ᵀ (A22 kf mu n1 (n - n1) fun i d => coord d (perm i)) := by
  have hmu : ∀ s t, (if e s = e t then mu else 0) = if s = t then mu else 0 := fun s t => by
    by_cases hst : s = t
    · subst hst; rw [if_pos rfl, if_pos rfl]
    · rw [if_neg hst, if_neg fun h => hst (e.injective h)]
  ext s t
  rw [Matrix.submatrix_apply]
  unfold kmat
  rw [hmu, he, he]
  cases s with
  | inl i => cases t with
    | inl j =>
      rw [fromBlocks_apply₁₁]
      simp only [Sum.inl.injEq]
      rfl
    | inr j =>
      rw [fromBlocks_apply₁₂, if_neg (by simp), add_zero]
      rfl
  | inr i => cases t with
    | inl j =>
      rw [fromBlocks_apply₂₁, if_neg (by simp), add_zero, Matrix.transpose_apply, hk]
      rfl
    | inr j =>
      rw [fromBlocks_apply₂₂]
      simp only [Sum.inr.injEq]
      rfl

/-- **C68** For any positive definite shifted kernel matrix `K + mu I`, any order of the points (so any choice of landmarks) and any admissible neighbour
lists, the AFN preconditioner can be built, and applying it multiplies with a symmetric positive definite matrix: the inverse of a matrix `T` that agrees
with `K + mu I` in every row and column of a landmark, and in the other entries differs by replacing the Schur complement by its FSAI approximation. -/
theorem C68_afn (E : Env) (hL : E.lp.Correct) (hD : E.lp.Definite) {kf : (Nat → ℝ) → (Nat → ℝ) → ℝ} (hk : ∀ x y, kf x y = kf y x) {mu : ℝ} {n : Nat}
    {coord : Nat → Nat → ℝ} (hK : (kmat kf mu n coord).PosDef) {perm : Nat → Nat} (ho : IsOrder n perm) {est maxK : Nat} (he : maxK ≤ est) (hm : maxK ≤ n)
    {m : Nat} {nn : Nat → List Nat} (hn : ∀ i < n - maxK, Lower m i (nn i))
    (ev : CsrEnv) (h1 : ev.ordG.Perm (List.range (n - maxK))) (h2 : ev.ordGT.Perm (List.range (n - maxK))) :
    ∃ (P : Precond) (B T : Matrix (Fin n) (Fin n) ℝ) (G : Matrix (Fin (n - maxK)) (Fin (n - maxK)) ℝ),
      Returns (precondBuild E kf mu n coord est maxK perm nn ev) (some P) ∧ Applies P n B ∧ B.PosDef ∧ B * T = 1 ∧
      (∀ i j : Fin n, (∃ t < maxK, perm t = i ∨ perm t = j) → T i j = kmat kf mu n coord i j) ∧
      IsFSAI nn (schur kf mu maxK (n - maxK) fun i d => coord d (perm i)) G ∧
      ∀ (i j : Fin n) (a b : Fin (n - maxK)), perm (maxK + a) = i → perm (maxK + b) = j →
        T i j = kmat kf mu n coord i j - schur kf mu maxK (n - maxK) (fun i d => coord d (perm i)) a b + (Gᵀ * G)⁻¹ a b := by
  obtain ⟨e, hee⟩ := order_equiv ho hm
  have hblk := kmat_blocks hk mu coord hee
  have hpd : ((kmat kf mu n coord).submatrix e e).PosDef := hK.submatrix e.injective
  have hA : (A11 kf mu maxK fun i d => coord d (perm i)).PosDef := by
    have := hpd.submatrix (e := (Sum.inl : Fin maxK → Fin maxK ⊕ Fin (n - maxK))) Sum.inl_injective
    rw [hblk] at this
    exact this
  have hS : (schur kf mu maxK (n - maxK) fun i d => coord d (perm i)).PosDef := by
    rw [hblk, posDef_blocks hA] at hpd
    exact hpd
  obtain ⟨A, G, r, f, gp, ap⟩ := afnBuild_spec (E := E) hL hD hk hA hS hn ev h1 h2
  obtain ⟨p1, p2⟩ := afn_block hA (A12 kf maxK (n - maxK) fun i d => coord d (perm i)) gp
  set T0 := fromBlocks (A11 kf mu maxK fun i d => coord d (perm i)) (A12 kf maxK (n - maxK) fun i d => coord d (perm i))
    (A12 kf maxK (n - maxK) fun i d => coord d (perm i))ᵀ
    ((A12 kf maxK (n - maxK) fun i d => coord d (perm i))ᵀ * (A11 kf mu maxK fun i d => coord d (perm i))⁻¹ * (A12 kf maxK (n - maxK) fun i d => coord d (perm i)) + (Gᵀ * G)⁻¹) with hT0
  have hval : ∀ i j, T0.submatrix e.symm e.symm i j = T0 (e.symm i) (e.symm j) := fun _ _ => rfl
  have hkm : ∀ i j, kmat kf mu n coord i j = ((kmat kf mu n coord).submatrix e e) (e.symm i) (e.symm j) := by
    intro i j; rw [Matrix.submatrix_apply, Equiv.apply_symm_apply, Equiv.apply_symm_apply]
  obtain ⟨o1, o2⟩ := order_facts ho
  refine ⟨⟨n, maxK, perm, .inr A⟩, T0⁻¹.submatrix e.symm e.symm, T0.submatrix e.symm e.symm, G, ?_, ?_, ?_, ?_, ?_, f, ?_⟩
  · obtain ⟨F0, hF0⟩ := r
    refine ⟨F0, fun fuel hfu => ?_⟩
    unfold precondBuild
    dsimp only
    rw [if_neg (by omega), if_neg (by omega), hF0 fuel hfu]
    rfl
  · intro x y0
    refine ⟨fun i => ?_, fun i hi => ?_⟩
    · have hs := fold_scatter (perm := perm) (n := n) (py := afnApply maxK (n - maxK) A fun i => x (perm i)) (y0 := y0) o2
      have hi : ((i : Fin n) : Nat) = perm (bpos maxK (n - maxK) (e.symm i)) := by rw [← hee, Equiv.apply_symm_apply]
      have hlt : bpos maxK (n - maxK) (e.symm i) < n := by
        cases h : e.symm i with
        | inl a => show (a : Nat) < n; omega
        | inr b => show maxK + (b : Nat) < n; omega
      have : precondApply ⟨n, maxK, perm, .inr A⟩ x y0 i = afnApply maxK (n - maxK) A (fun i => x (perm i)) (bpos maxK (n - maxK) (e.symm i)) := by
        rw [hi]
        exact hs.1 _ hlt
      rw [this, ap]
      rw [Matrix.submatrix_mulVec_equiv]
      refine congrFun (congrArg _ ?_) _
      funext s
      show x (perm _) = x _
      rw [Equiv.symm_symm, hee]
    · exact (fold_scatter (perm := perm) (n := n) (py := afnApply maxK (n - maxK) A fun i => x (perm i)) (y0 := y0) o2).2 i fun j hj => by have := o1 j hj; omega
  · exact p1.inv.submatrix e.symm.injective
  · rw [Matrix.submatrix_mul_equiv, Matrix.nonsing_inv_mul _ ((Matrix.isUnit_iff_isUnit_det _).1 p1.isUnit), Matrix.submatrix_one_equiv]
  · intro i j ⟨t, ht, hij⟩
    rw [hval, hkm, hblk, hT0]
    have hl : ∀ v : Fin n, perm t = v → e.symm v = Sum.inl ⟨t, ht⟩ := by
      intro v hv
      rw [Equiv.symm_apply_eq]
      apply Fin.ext
      rw [hee, ← hv]; rfl
    rcases hij with h | h
    · rw [hl i h]
      cases e.symm j <;> rfl
    · rw [hl j h]
      cases e.symm i <;> rfl
  · intro i j a b ha hb
    have hl : ∀ (v : Fin n) (a : Fin (n - maxK)), perm (maxK + a) = v → e.symm v = Sum.inr a := by
      intro v a hv
      rw [Equiv.symm_apply_eq]
      apply Fin.ext
      rw [hee, ← hv]; rfl
    rw [hval, hkm, hblk, hT0, hl i a ha, hl j b hb]
    simp only [fromBlocks_apply₂₂, schur, Matrix.add_apply, Matrix.sub_apply]
    ring

/-- **C68** (exact solver).  From the points to the solution: if the points have at least `maxK` different positions, the program orders them, finds the
neighbours and builds the preconditioner whatever the schedules are; with `fsai_npt` at least the number of points that are not landmarks, applying it solves
with `K + mu I`. -/
theorem C68_exact (E : Env) (hL : E.lp.Correct) (hD : E.lp.Definite) {kf : (Nat → ℝ) → (Nat → ℝ) → ℝ} (hk : ∀ x y, kf x y = kf y x) {mu : ℝ}
    (F : FpsIn ℝ) (t1 : 1 ≤ F.nThread) (t2 : F.nThread ≤ F.npt) (hbig : ∀ i < F.npt, ∀ j < F.npt, sqDist F j (pos F i) ≤ F.big)
    (hK : (kmat kf mu F.npt F.coord).PosDef) {est maxK : Nat} (he : maxK ≤ est) (hm : maxK ≤ F.npt) (hd : maxK ≤ nDistinct F)
    (orders : Nat → List Nat) (ho : ∀ i, (orders i).Perm (List.range F.nThread)) (st : FpsSt ℝ)
    {m : Nat} (hm1 : 1 ≤ m) (hm2 : F.npt - maxK ≤ m) (order : List Nat) (hor : order.Perm (List.range (F.npt - maxK)))
    (ev : CsrEnv) (h1 : ev.ordG.Perm (List.range (F.npt - maxK))) (h2 : ev.ordGT.Perm (List.range (F.npt - maxK))) :
    ∃ (perm : Nat → Nat) (nn : Nat → List Nat) (P : Precond), orderPoints F maxK orders st = .ok perm ∧
      Returns (exactKNN F.dim (fun d j => F.coord d (perm (maxK + j))) (F.npt - maxK) m order) nn ∧
      Returns (precondBuild E kf mu F.npt F.coord est maxK perm nn ev) (some P) ∧
      ∀ b y0 : Nat → ℝ, (kmat kf mu F.npt F.coord *ᵥ fun i => precondApply P b y0 i) = fun i : Fin F.npt => b i := by
  obtain ⟨perm, hp, hord, -, -⟩ := C65_order F t1 t2 hbig maxK hm hd orders ho st
  obtain ⟨nn, r, hnn⟩ := C66_exact_knn F.dim (fun d j => F.coord d (perm (maxK + j))) (F.npt - maxK) m hm1
  obtain ⟨P, B, T, G, a1, a2, a3, a4, a5, a6, a7⟩ := C68_afn E hL hD hk hK hord he hm (fun i hi => (hnn i hi).lower) ev h1 h2
  refine ⟨perm, nn, P, hp, r order hor, a1, fun b y0 => ?_⟩
  have hfull : ∀ i < F.npt - maxK, ∀ j, j ∈ nn i ↔ j ≤ i := by
    intro i hi j
    refine ⟨(hnn i hi).lower.le j, fun hj => ?_⟩
    have hlen := (hnn i hi).full
    have : nn i ⊆ List.range (i + 1) := fun x hx => List.mem_range.2 (by have := (hnn i hi).lower.le x hx; omega)
    have hp := ((hnn i hi).lower.nodup.subperm this).perm_of_length_le (by rw [List.length_range]; omega)
    exact hp.mem_iff.2 (List.mem_range.2 (by omega))
  obtain ⟨e, hee⟩ := order_equiv hord hm
  have hblk := kmat_blocks hk mu F.coord hee
  have hpd : ((kmat kf mu F.npt F.coord).submatrix e e).PosDef := hK.submatrix e.injective
  have hA : (A11 kf mu maxK fun i d => F.coord d (perm i)).PosDef := by
    have := hpd.submatrix (e := (Sum.inl : Fin maxK → Fin maxK ⊕ Fin (F.npt - maxK))) Sum.inl_injective
    rw [hblk] at this
    exact this
  have hS : (schur kf mu maxK (F.npt - maxK) fun i d => F.coord d (perm i)).PosDef := by
    rw [hblk, posDef_blocks hA] at hpd
    exact hpd
  have hsym : (schur kf mu maxK (F.npt - maxK) fun i d => F.coord d (perm i))ᵀ = schur kf mu maxK (F.npt - maxK) fun i d => F.coord d (perm i) := by
    have := hS.isHermitian; rwa [Matrix.IsHermitian, Matrix.conjTranspose_eq_transpose_of_trivial] at this
  have hGG := (C67_full hsym hfull a6).1
  have hinv : (Gᵀ * G)⁻¹ = schur kf mu maxK (F.npt - maxK) fun i d => F.coord d (perm i) := Matrix.inv_eq_right_inv hGG
  have hT : T = kmat kf mu F.npt F.coord := by
    ext i j
    have hi : ((i : Fin F.npt) : Nat) = perm (bpos maxK (F.npt - maxK) (e.symm i)) := by rw [← hee, Equiv.apply_symm_apply]
    have hj : ((j : Fin F.npt) : Nat) = perm (bpos maxK (F.npt - maxK) (e.symm j)) := by rw [← hee, Equiv.apply_symm_apply]
    cases ci : e.symm i with
    | inl a => rw [ci] at hi; exact a5 i j ⟨a, a.2, Or.inl hi.symm⟩
    | inr a => cases cj : e.symm j with
      | inl b => rw [cj] at hj; exact a5 i j ⟨b, b.2, Or.inr hj.symm⟩
      | inr b =>
        rw [ci] at hi; rw [cj] at hj
        rw [a7 i j a b hi.symm hj.symm, hinv, sub_add_cancel]
  rw [hT] at a4
  have e' : (fun i : Fin F.npt => precondApply P b y0 i) = B *ᵥ fun j => b j := funext (a2 b y0).1
  rw [e', Matrix.mulVec_mulVec, mul_eq_one_comm.1 a4, Matrix.one_mulVec]

/-! ## Non-vacuity -/

/-- Three points on a line. -/
noncomputable def exLine : FpsIn ℝ := ⟨3, 1, fun _ j => j + 1, 2, 100⟩

theorem exLine_posDef : (kmat (fun x y => x 0 * y 0) 2 3 exLine.coord).PosDef := by
  have e : kmat (fun x y => x 0 * y 0) 2 3 exLine.coord =
      (2 : ℝ) • (1 : Matrix (Fin 3) (Fin 3) ℝ) + vecMulVec (fun i : Fin 3 => ((i : Nat) : ℝ) + 1) (star fun i : Fin 3 => ((i : Nat) : ℝ) + 1) := by
    refine Matrix.ext fun (i j : Fin 3) => ?_
    show (((i : Nat) : ℝ) + 1) * (((j : Nat) : ℝ) + 1) + (if i = j then (2 : ℝ) else 0) =
      2 * (1 : Matrix (Fin 3) (Fin 3) ℝ) i j + (((i : Nat) : ℝ) + 1) * (((j : Nat) : ℝ) + 1)
    rw [Matrix.one_apply]
    by_cases h : i = j
    · rw [if_pos h, if_pos h]; ring
    · rw [if_neg h, if_neg h]; ring
  rw [e]
  exact Matrix.PosDef.add_posSemidef (Matrix.PosDef.one.smul (by norm_num)) (posSemidef_vecMulVec_self_star _)

theorem exLine_distinct : nDistinct exLine = 3 := by
  unfold nDistinct
  rw [Finset.card_image_of_injective]
  · rfl
  · intro a b hab
    have := congrFun hab (⟨0, by decide⟩ : Fin 1)
    have : (a : ℝ) + 1 = b + 1 := this
    exact_mod_cast add_right_cancel this

/-- One landmark, two threads. -/
example : ∃ (E : Env) (perm : Nat → Nat) (nn : Nat → List Nat) (P : Precond),
    orderPoints exLine 1 (fun _ => [1, 0]) ⟨fun _ => 7, fun _ => -3, fun _ => 9, fun _ => 2, fun _ => 42, 17⟩ = .ok perm ∧
    Returns (precondBuild E (fun x y => x 0 * y 0) 2 3 exLine.coord 5 1 perm nn ⟨fun _ => 7, fun _ => 7, [1, 0], [0, 1]⟩) (some P) ∧
    ∀ b y0 : Nat → ℝ, (kmat (fun x y => x 0 * y 0) 2 3 exLine.coord *ᵥ fun i => precondApply P b y0 i) = fun i : Fin 3 => b i := by
  obtain ⟨Lp, hL, hD⟩ := lapack_exists
  obtain ⟨Lq, -⟩ := H2Pack.SPD.lapack2_exists
  obtain ⟨perm, nn, P, a, _, b, c⟩ := C68_exact ⟨Lp, Lq, fun _ => 0, 0⟩ hL hD (kf := fun x y => x 0 * y 0) (fun x y => mul_comm _ _) exLine
    (by show 1 ≤ 2; decide) (by show 2 ≤ 3; decide)
    (by
      intro i hi j hj
      have hi : i < 3 := hi
      have hj : j < 3 := hj
      show ∑ d ∈ range 1, (((j : ℝ) + 1) - ((i : ℝ) + 1)) ^ 2 ≤ 100
      rw [range_one, sum_singleton]
      interval_cases i <;> interval_cases j <;> norm_num)
    exLine_posDef (est := 5) (maxK := 1) (by decide) (by show 1 ≤ 3; decide) (by rw [exLine_distinct]; decide)
    (fun _ => [1, 0]) (fun _ => by show [1, 0].Perm (List.range 2); decide) ⟨fun _ => 7, fun _ => -3, fun _ => 9, fun _ => 2, fun _ => 42, 17⟩
    (m := 2) (by decide) (by show 3 - 1 ≤ 2; decide) [0, 1] (by show [0, 1].Perm (List.range 2); decide)
    ⟨fun _ => 7, fun _ => 7, [1, 0], [0, 1]⟩ (by show [1, 0].Perm (List.range 2); decide) (by show [0, 1].Perm (List.range 2); decide)
  exact ⟨_, perm, nn, P, a, b, c⟩

end H2Pack.AFN
