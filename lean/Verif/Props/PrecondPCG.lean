import Verif.Props.FSAIPCG
import Verif.Props.BlockJacobi
import Verif.Props.LRDPrecond

/-! # C71 with C93 and C95: conjugate gradients with the block Jacobi and the low rank preconditioners (examples/SPDHSS-H2/pcg_tests.c:83-118) -/

namespace H2Pack.PCG
open Finset Matrix
open H2Pack.FSB (arr)

/-- The kernel matrix plus `shift I`, points and components in the order of the user. -/
noncomputable def shiftedKernel (kern : (Nat → ℝ) → (Nat → ℝ) → Nat → Nat → ℝ) (shift : ℝ) (pts : Nat → Nat → ℝ) (n kd : Nat) : Matrix (Fin (n * kd)) (Fin (n * kd)) ℝ :=
  fun r c => kern (pts (r / kd)) (pts (c / kd)) (r % kd) (c % kd) + if r = c then shift else 0

/-- The matrix with the given entries: component `a` of point `i`, component `b` of point `j`. -/
def entryMatrix (f : Nat → Nat → Nat → Nat → ℝ) (n kd : Nat) : Matrix (Fin (n * kd)) (Fin (n * kd)) ℝ := fun r c => f (r / kd) (r % kd) (c / kd) (c % kd)

theorem entryMatrix_mulVec {f : Nat → Nat → Nat → Nat → ℝ} {n kd : Nat} (hkd : 0 < kd) {y b : Nat → ℝ}
    (h : ∀ i < n, ∀ a < kd, ∑ j ∈ range n, ∑ c ∈ range kd, f i a j c * y (j * kd + c) = b (i * kd + a)) :
    entryMatrix f n kd *ᵥ (fun t => y t) = fun t : Fin (n * kd) => b t := by
  funext r
  have hi : (r / kd : Nat) < n := (Nat.div_lt_iff_lt_mul hkd).2 r.2
  have e := h _ hi _ (Nat.mod_lt r hkd)
  rw [Nat.div_add_mod'] at e
  rw [← e]
  show ∑ c : Fin (n * kd), f (r / kd) (r % kd) (c / kd) (c % kd) * y c = _
  rw [Fin.sum_univ_eq_sum_range (fun c => f (r / kd) (r % kd) (c / kd) (c % kd) * y c), H2Pack.MV.sum_rows]
  refine sum_congr rfl fun j _ => sum_congr rfl fun c hc => ?_
  have hc := mem_range.1 hc
  rw [show (j * kd + c) / kd = j by rw [Nat.mul_comm, Nat.mul_add_div hkd, Nat.div_eq_of_lt hc, Nat.add_zero], Nat.mul_add_mod', Nat.mod_eq_of_lt hc]

/-- Setting everything outside the diagonal blocks to zero. -/
theorem block_posDef {ι κ : Type} [Fintype ι] [DecidableEq ι] [Fintype κ] [DecidableEq κ] (cl : ι → κ) {Z : Matrix ι ι ℝ} (hZ : Z.PosDef) :
    (Matrix.of fun i j => if cl i = cl j then Z i j else 0).PosDef := by
  have hs : ∀ i j, Z i j = Z j i := fun i j => by
    have := congrFun (congrFun hZ.isHermitian j) i
    simpa using this
  refine Matrix.PosDef.of_dotProduct_mulVec_pos ?_ fun x hx => ?_
  · ext i j
    simp only [Matrix.conjTranspose_apply, Matrix.of_apply, star_trivial]
    by_cases h : cl i = cl j
    · rw [if_pos h, if_pos h.symm, hs]
    · rw [if_neg h, if_neg (Ne.symm h)]
  · have e : star x ⬝ᵥ ((Matrix.of fun i j => if cl i = cl j then Z i j else 0) *ᵥ x) =
        ∑ k, (fun i => if cl i = k then x i else 0) ⬝ᵥ (Z *ᵥ fun i => if cl i = k then x i else 0) := by
      simp only [star_trivial, dotProduct, Matrix.mulVec, Matrix.of_apply, mul_sum]
      conv_rhs => rw [sum_comm]
      refine sum_congr rfl fun i _ => ?_
      conv_rhs => rw [sum_comm]
      refine sum_congr rfl fun j _ => ?_
      rw [sum_eq_single (cl i)]
      · rw [if_pos rfl]
        by_cases h : cl i = cl j
        · rw [if_pos h, if_pos h.symm]
        · rw [if_neg h, if_neg (Ne.symm h)]; simp
      · intro k _ hk
        rw [if_neg (Ne.symm hk), zero_mul]
      · intro h; exact absurd (mem_univ _) h
    rw [e]
    obtain ⟨i, hi⟩ := Function.ne_iff.1 hx
    refine sum_pos' (fun k _ => ?_) ⟨cl i, mem_univ _, ?_⟩
    · have := hZ.posSemidef.dotProduct_mulVec_nonneg (fun i => if cl i = k then x i else 0)
      simpa using this
    · have := hZ.dotProduct_mulVec_pos (x := fun j => if cl j = cl i then x j else 0) (Function.ne_iff.2 ⟨i, by simpa using hi⟩)
      simpa using this

/-- The solver with a preconditioner that solves a positive definite system. -/
theorem pcg_solver {n : Nat} {A S : Matrix (Fin n) (Fin n) ℝ} (hA : A.PosDef) (hS : S.PosDef) {M : (Fin n → ℝ) → Fin n → ℝ} (hM : ∀ v, S *ᵥ M v = v)
    (b x0 p0 : Fin n → ℝ) {tol : ℝ} (ht : 0 ≤ tol) {maxIter : Nat} (hm : n ≤ maxIter) (h0 : Nat → ℝ) :
    ∃ o, pcg ⟨fun v => A *ᵥ v, some M, b, x0, tol, maxIter⟩ p0 h0 = some o ∧ o.flag = 0 ∧ o.iter ≤ n ∧ norm2 (b - A *ᵥ o.x) ≤ norm2 b * tol ∧
      (A = S → 1 ≤ maxIter → o.iter ≤ 1) := by
  have hu : IsUnit S.det := (Matrix.isUnit_iff_isUnit_det _).1 hS.isUnit
  have hop : Operators ⟨fun v => A *ᵥ v, some M, b, x0, tol, maxIter⟩ A S⁻¹ := ⟨fun v => rfl, fun v => by
    show M v = S⁻¹ *ᵥ v
    conv_rhs => rw [← hM v]
    rw [Matrix.mulVec_mulVec, Matrix.nonsing_inv_mul _ hu, Matrix.one_mulVec]⟩
  obtain ⟨o, o1, o2, o3, -⟩ := C71_finite _ hop hA hS.inv ht p0 h0 hm
  obtain ⟨-, g, -⟩ := C70_flag _ A hop.1 p0 h0 o o1
  refine ⟨o, o1, o2, o3, g.1 o2, fun e h1 => ?_⟩
  subst e
  obtain ⟨o', p1, -, p3, -⟩ := C71_exact_precond _ hop hA hS.inv ht p0 h0 (Matrix.nonsing_inv_mul _ hu) h1
  rw [o1] at p1
  cases p1
  exact p3

end H2Pack.PCG

namespace H2Pack.BJ
open H2Pack.MV H2Pack.Part H2Pack.PCG Finset Matrix
open H2Pack.FSB (arr)

section
variable {ptDim xptDim n : Nat} (hn : 0 < n) (hx : ptDim ≤ xptDim) {coord : Nat → Nat → ℝ} {mlp : Int} {mls : ℝ}
  {rb : Option (H2Pack.Utils.Box ℝ)} {rnd : Nat → ℝ} {junk : Arr ℝ} {g : Nat → Nat → Nat} {fuel : Nat} {P : Partitioned ℝ}
  (h : partitionPoints ptDim xptDim n coord mlp mls rb rnd junk g fuel = .ok P) {J : JIT ℝ} (H : Loaded J P n xptDim)

include hn hx h H

theorem sameLeaf_refl {i : Nat} (hi : i < n) : SameLeaf P i i := by
  have O := outcome hn hx h
  have R := ready hn hx h H
  obtain ⟨p, hp, rfl⟩ := perm_surj O.perm hi
  obtain ⟨y, hy, y1, y2⟩ := H2Pack.Part.ClusterTree.tiles_cover _ 0 J.R.nPoint R.tiles p (Nat.zero_le _) (by rw [H.npt]; exact hp)
  rw [List.mem_map] at hy
  obtain ⟨v, hv, rfl⟩ := hy
  unfold leaves at hv
  rw [List.mem_filter, List.mem_range] at hv
  obtain ⟨l, hl, rfl⟩ := leaf_ex R hv.1 (by simpa using hv.2)
  exact (sameLeaf_pos hn hx h H hp hp).2 ⟨l, hl, ⟨y1, y2⟩, y1, y2⟩

theorem sameLeaf_trans {i j k : Nat} (hi : i < n) (hj : j < n) (hk : k < n) (h1 : SameLeaf P i j) (h2 : SameLeaf P j k) : SameLeaf P i k := by
  have O := outcome hn hx h
  have R := ready hn hx h H
  obtain ⟨p, hp, rfl⟩ := perm_surj O.perm hi
  obtain ⟨q, hq, rfl⟩ := perm_surj O.perm hj
  obtain ⟨r, hr, rfl⟩ := perm_surj O.perm hk
  obtain ⟨l, hl, a1, a2⟩ := (sameLeaf_pos hn hx h H hp hq).1 h1
  obtain ⟨m, hm, b1, b2⟩ := (sameLeaf_pos hn hx h H hq hr).1 h2
  have mem : ∀ m < J.R.arr.nLeaf, J.R.leaf m ∈ leaves J.R.arr := fun m hm => by
    unfold leaves; rw [List.mem_filter, List.mem_range]; exact ⟨(leaf_mem R hm).1, by simpa using (leaf_mem R hm).2⟩
  have : J.R.leaf m = J.R.leaf l := H2Pack.Part.ClusterTree.tiles_unique (fun v => (J.R.arr.ptS v, J.R.arr.ptE v)) _ 0 J.R.nPoint R.tiles
    (List.Nodup.filter _ List.nodup_range) q _ _ (mem m hm) (mem l hl) b1.1 b1.2 a2.1 a2.2
  rw [this] at b2
  exact (sameLeaf_pos hn hx h H hp hr).2 ⟨l, hl, a1, b2⟩

/-- The matrix of the preconditioner is positive definite. -/
theorem blockMatrix_posDef {shift : ℝ} (hZ : (shiftedKernel J.kern shift (orig xptDim coord) n J.R.kdim).PosDef) :
    (entryMatrix (blockMatrix J.kern shift (orig xptDim coord) P) n J.R.kdim).PosDef := by
  classical
  have hlt : ∀ r : Fin (n * J.R.kdim), (r / J.R.kdim : Nat) < n := fun r => (Nat.div_lt_iff_lt_mul H.kdim).2 r.2
  let cl : Fin (n * J.R.kdim) → Finset (Fin (n * J.R.kdim)) := fun r => univ.filter fun c => SameLeaf P (r / J.R.kdim) (c / J.R.kdim)
  have hsymm : ∀ i j, SameLeaf P i j → SameLeaf P j i := fun i j ⟨v, a, b, c, d⟩ => ⟨v, a, b, d, c⟩
  have hcl : ∀ r c, cl r = cl c ↔ SameLeaf P (r / J.R.kdim) (c / J.R.kdim) := by
    intro r c
    constructor
    · intro e
      have : c ∈ cl c := mem_filter.2 ⟨mem_univ _, sameLeaf_refl hn hx h H (hlt c)⟩
      rw [← e] at this
      exact (mem_filter.1 this).2
    · intro e
      ext t
      simp only [cl, mem_filter, mem_univ, true_and]
      exact ⟨fun w => sameLeaf_trans hn hx h H (hlt _) (hlt _) (hlt _) (hsymm _ _ e) w, fun w => sameLeaf_trans hn hx h H (hlt _) (hlt _) (hlt _) e w⟩
  have := block_posDef cl hZ
  convert this using 1
  ext r c
  unfold entryMatrix blockMatrix shiftedKernel
  rw [Matrix.of_apply]
  refine if_congr (hcl r c).symm ?_ rfl
  congr 1
  refine if_congr ⟨fun ⟨a, b⟩ => Fin.ext ?_, fun e => by rw [e]; exact ⟨rfl, rfl⟩⟩ rfl rfl
  rw [← Nat.div_add_mod (r : Nat) J.R.kdim, a, b, Nat.div_add_mod]

/-- **C93** (solver).  If the kernel matrix plus `shift I` is positive definite, the preconditioner is built, and conjugate gradients with it solve every positive
definite system of the size of the kernel matrix to every tolerance in at most as many iterations as there are unknowns. -/
theorem C93_pcg {inverse : Inverse ℝ} (hI : inverse.Correct) {shift : ℝ} (hZ : (shiftedKernel J.kern shift (orig xptDim coord) n J.R.kdim).PosDef)
    (order : List Nat) (ho : ∀ i, i ∈ order ↔ i < P.arr.nLeaf) (junk' : Precond ℝ) :
    ∃ Q, build inverse J shift order junk' = some Q ∧
      ∀ order' : List Nat, (∀ i, i ∈ order' ↔ i < P.arr.nLeaf) → ∀ (gp : (Nat → Nat) × (Nat → Nat)) (pb px x : Nat → ℝ)
        (A : Matrix (Fin (n * J.R.kdim)) (Fin (n * J.R.kdim)) ℝ), A.PosDef → ∀ (b x0 p0 : Fin (n * J.R.kdim) → ℝ) (tol : ℝ) (maxIter : Nat) (h0 : Nat → ℝ), 0 ≤ tol →
          n * J.R.kdim ≤ maxIter →
          ∃ o, pcg ⟨fun v => A *ᵥ v, some fun v i => apply J.R Q order' gp pb px x (arr v) i, b, x0, tol, maxIter⟩ p0 h0 = some o ∧ o.flag = 0 ∧
            o.iter ≤ n * J.R.kdim ∧ norm2 (b - A *ᵥ o.x) ≤ norm2 b * tol := by
  have O := outcome hn hx h
  have hk := H.kdim
  cases hQ : build inverse J shift order junk' with
  | none =>
    exfalso
    obtain ⟨v, hv, h0, hno⟩ := (C93_build hn hx h H hI shift order ho junk').1 hQ
    apply hno
    generalize hs : P.arr.ptS v = s at *
    generalize he : P.arr.ptE v = e at *
    have hlt : e < n := he ▸ O.tree.clusterLt v hv
    have hps : ∀ r < (e + 1 - s) * J.R.kdim, s + r / J.R.kdim < n := fun r hr => by
      have := (Nat.div_lt_iff_lt_mul hk).2 hr
      generalize r / J.R.kdim = w at *
      omega
    let f : Fin ((e + 1 - s) * J.R.kdim) → Fin (n * J.R.kdim) := fun r =>
      ⟨P.coordIdx (s + r / J.R.kdim) * J.R.kdim + r % J.R.kdim, H2Pack.Dense.row_lt (perm_lt O.perm (hps r r.2)) (Nat.mod_lt _ hk)⟩
    have fd : ∀ r, (f r : Nat) / J.R.kdim = P.coordIdx (s + r / J.R.kdim) := fun r => by
      show (P.coordIdx (s + r / J.R.kdim) * J.R.kdim + r % J.R.kdim) / J.R.kdim = _
      rw [Nat.mul_comm, Nat.mul_add_div hk, Nat.div_eq_of_lt (Nat.mod_lt _ hk), Nat.add_zero]
    have fm : ∀ r, (f r : Nat) % J.R.kdim = r % J.R.kdim := fun r => by
      show (P.coordIdx (s + r / J.R.kdim) * J.R.kdim + r % J.R.kdim) % J.R.kdim = _
      rw [Nat.mul_add_mod', Nat.mod_mod]
    have fi : Function.Injective f := by
      intro r c hrc
      have a := perm_inj O.perm (hps r r.2) (hps c c.2) (by rw [← fd, ← fd, hrc])
      have b : (r % J.R.kdim : Nat) = c % J.R.kdim := by rw [← fm, ← fm, hrc]
      apply Fin.ext
      rw [← Nat.div_add_mod (r : Nat) J.R.kdim, b, show (r / J.R.kdim : Nat) = c / J.R.kdim from Nat.add_left_cancel a, Nat.div_add_mod]
    have hD := hZ.submatrix fi
    have hu := (Matrix.isUnit_iff_isUnit_det _).1 hD.isUnit
    have hmul := Matrix.mul_nonsing_inv _ hu
    generalize hY : ((shiftedKernel J.kern shift (orig xptDim coord) n J.R.kdim).submatrix f f)⁻¹ = Y at hmul
    refine ⟨fun t c => if w : t < (e + 1 - s) * J.R.kdim ∧ c < (e + 1 - s) * J.R.kdim then Y ⟨t, w.1⟩ ⟨c, w.2⟩ else 0, fun r hr c hc => ?_⟩
    have hrc := congrFun (congrFun hmul ⟨r, hr⟩) ⟨c, hc⟩
    rw [Matrix.mul_apply, Matrix.one_apply] at hrc
    have e1 : (if r = c then (1 : ℝ) else 0) = if (⟨r, hr⟩ : Fin ((e + 1 - s) * J.R.kdim)) = ⟨c, hc⟩ then 1 else 0 := if_congr (by rw [Fin.mk.injEq]) rfl rfl
    rw [e1, ← hrc, sum_range]
    refine sum_congr rfl fun t _ => ?_
    dsimp only
    rw [dif_pos ⟨t.2, hc⟩]
    congr 1
    rw [Matrix.submatrix_apply]
    unfold shiftedKernel
    rw [fd, fd, fm, fm]
    congr 1
    refine if_congr ?_ rfl rfl
    rw [fi.eq_iff, Fin.ext_iff]
  | some Q =>
    refine ⟨Q, rfl, fun order' ho' gp pb px x A hA b x0 p0 tol maxIter h0 ht hm => ?_⟩
    obtain ⟨o, o1, o2, o3, o4, -⟩ := pcg_solver hA (blockMatrix_posDef hn hx h H hZ) (M := fun v i => apply J.R Q order' gp pb px x (arr v) i) (fun v => by
      refine (entryMatrix_mulVec hk (C93_solves hn hx h H hI shift order ho junk' Q hQ order' ho' gp pb px x (arr v))).trans ?_
      funext t
      exact dif_pos t.2) b x0 p0 ht hm h0
    exact ⟨o, o1, o2, o3, o4⟩

end

/-! ## Non-vacuity (the hypotheses of `C95_pcg` are those of `C95_low_rank`, which has its own case) -/

section
open Classical in
/-- Routines with the contract exist over the reals. -/
noncomputable def realInverse : Inverse ℝ := fun d a =>
  if w : ∃ X : Nat → Nat → ℝ, ∀ i < d, ∀ j < d, ∑ t ∈ range d, (if i < d ∧ t < d then a i t else 0) * X t j = if i = j then 1 else 0 then some w.choose else none

theorem realInverse_correct : realInverse.Correct := by
  have key : ∀ (d : Nat) (a X : Nat → Nat → ℝ), (∀ i < d, ∀ j < d, ∑ t ∈ range d, (if i < d ∧ t < d then a i t else 0) * X t j = if i = j then 1 else 0) ↔
      ∀ i < d, ∀ j < d, ∑ t ∈ range d, a i t * X t j = if i = j then 1 else 0 := by
    intro d a X
    refine forall_congr' fun i => forall_congr' fun hi => forall_congr' fun j => forall_congr' fun _ => ?_
    rw [sum_congr rfl fun t ht => by rw [if_pos ⟨hi, mem_range.1 ht⟩]]
  refine ⟨fun d a a' e => ?_, fun d a X e => ?_, fun d a e => ?_⟩
  · have : (fun i t => if i < d ∧ t < d then a i t else 0) = fun i t => if i < d ∧ t < d then a' i t else 0 := by
      funext i t
      by_cases w : i < d ∧ t < d
      · rw [if_pos w, if_pos w, e i w.1 t w.2]
      · rw [if_neg w, if_neg w]
    have e2 : ∀ (b b' : Nat → Nat → ℝ), b = b' → (∃ X : Nat → Nat → ℝ, ∀ i < d, ∀ j < d, ∑ t ∈ range d, b i t * X t j = if i = j then 1 else 0) =
      ∃ X : Nat → Nat → ℝ, ∀ i < d, ∀ j < d, ∑ t ∈ range d, b' i t * X t j = if i = j then 1 else 0 := fun b b' w => by rw [w]
    have e3 : ∀ (b b' : Nat → Nat → ℝ), b = b' → (fun X : Nat → Nat → ℝ => ∀ i < d, ∀ j < d, ∑ t ∈ range d, b i t * X t j = if i = j then 1 else 0) =
      fun X => ∀ i < d, ∀ j < d, ∑ t ∈ range d, b' i t * X t j = if i = j then 1 else 0 := fun b b' w => by rw [w]
    unfold realInverse
    have e4 := e3 _ _ this
    have e5 : ∀ p q : (Nat → Nat → ℝ) → Prop, p = q → (open Classical in if w : ∃ X, p X then some w.choose else none) = (open Classical in if w : ∃ X, q X then some w.choose else none) := by
      rintro p _ rfl; rfl
    exact e5 _ _ e4
  · unfold realInverse at e
    split at e
    · rename_i w
      injection e with e
      rw [← key, ← e]
      exact w.choose_spec
    · cases e
  · unfold realInverse at e
    split at e
    · cases e
    · rename_i w
      rintro ⟨X, hX⟩
      exact w ⟨X, (key d a X).2 hX⟩

end

/-- Six points on a line, the kernel `2 + (1 if the points are equal)`, shift 3. -/
example : ∃ (P : Partitioned ℝ) (J : JIT ℝ), Loaded J P 6 1 ∧ realInverse.Correct ∧ (shiftedKernel J.kern 3 (orig 1 fun p _ => (p : ℝ)) 6 J.R.kdim).PosDef ∧
    ∃ Q, build realInverse J 3 (List.range P.arr.nLeaf) ⟨0, fun _ => 0, fun _ => 0, fun _ => 0, 0, fun _ => 0⟩ = some Q := by
  let coord : Nat → Nat → ℝ := fun p _ => p
  obtain ⟨P, F, hF⟩ := C09_terminates 1 1 6 (by norm_num) (le_refl _) coord 1 (1/100) (by norm_num) none (fun _ => 1/3)
    ⟨0, 0, 0, 0, fun _ => 0, fun _ => 0, fun _ => 0, fun _ => 0, fun _ => 0, fun _ => 0, fun _ => 0, fun _ => ⟨fun _ => 0, fun _ => 0⟩, fun _ => 0, fun _ => 0, fun _ => 0, fun _ => 0⟩
    (fun _ _ => 7)
  have h := hF F (le_refl _)
  let J : JIT ℝ := ⟨⟨P.arr, 6, 1, P.coordIdx, fun _ => ⟨0, 0, fun _ _ => 0⟩, [], [], fun _ => ⟨0, 0, fun _ _ => 0⟩, fun _ => ⟨0, 0, fun _ _ => 0⟩, 0, fun _ => 0⟩,
    4, 1, fun x y _ _ => 2 + if x 0 = y 0 then 1 else 0, none, fun p => P.coord p 0, fun _ => 0, fun _ _ => 0, fun _ _ => 0, fun _ _ => 0⟩
  have HL : Loaded J P 6 1 := ⟨rfl, rfl, rfl, rfl, by
    intro p hp d hd
    obtain rfl : d = 0 := by omega
    show P.coord (0 * 6 + p) 0 = _
    congr 1; omega, Nat.one_pos⟩
  have hZ : (shiftedKernel J.kern 3 (orig 1 fun p _ => (p : ℝ)) 6 J.R.kdim).PosDef := by
    have e : shiftedKernel J.kern 3 (orig 1 fun p _ => (p : ℝ)) 6 J.R.kdim = (4 : ℝ) • (1 : Matrix (Fin (6 * J.R.kdim)) (Fin (6 * J.R.kdim)) ℝ) +
        (2 : ℝ) • Matrix.vecMulVec (fun _ => 1) (star fun _ => 1) := by
      ext r c
      have e1 : shiftedKernel J.kern 3 (orig 1 fun p _ => (p : ℝ)) 6 J.R.kdim r c = 2 + (if ((r / 1 : Nat) : ℝ) = ((c / 1 : Nat) : ℝ) then 1 else 0) + if r = c then 3 else 0 := rfl
      rw [e1, Matrix.add_apply, Matrix.smul_apply, Matrix.smul_apply, Matrix.one_apply, Matrix.vecMulVec_apply]
      have e2 : (((r / 1 : Nat) : ℝ) = ((c / 1 : Nat) : ℝ)) ↔ r = c := by rw [Nat.div_one, Nat.div_one, Nat.cast_inj, Fin.val_inj]
      rw [if_congr e2 rfl rfl]
      by_cases hrc : r = c
      · simp [hrc]; norm_num
      · simp [hrc]
    rw [e]
    exact (Matrix.PosDef.one.smul (by norm_num)).add_posSemidef ((Matrix.posSemidef_vecMulVec_self_star _).smul (by norm_num))
  obtain ⟨Q, hQ, -⟩ := C93_pcg (by norm_num) le_rfl h HL realInverse_correct hZ (List.range P.arr.nLeaf) (fun i => List.mem_range) ⟨0, fun _ => 0, fun _ => 0, fun _ => 0, 0, fun _ => 0⟩
  exact ⟨P, J, HL, realInverse_correct, hZ, Q, hQ⟩

end H2Pack.BJ

namespace H2Pack.LRD
open H2Pack.MV H2Pack.Part H2Pack.BJ H2Pack.PCG H2Pack.Utils H2Pack.AFN Finset Matrix
open H2Pack.FSB (arr)

/-- The shifted low rank approximation is positive definite. -/
theorem lowRank_posDef {kern : (Nat → ℝ) → (Nat → ℝ) → Nat → Nat → ℝ} {pts : Nat → Nat → ℝ} {n kd : Nat} {s : List Nat} {shift : ℝ} (hs : 0 < shift)
    {Q : Matrix (Fin (s.length * kd)) (Fin (s.length * kd)) ℝ} (hQ : Q.PosSemidef) : (entryMatrix (lowRank kern pts kd s shift Q) n kd).PosDef := by
  have e : entryMatrix (lowRank kern pts kd s shift Q) n kd =
      (Matrix.of fun (p : Fin (s.length * kd)) (r : Fin (n * kd)) => skelRow kern pts kd s p (r / kd) (r % kd))ᴴ * Q *
        (Matrix.of fun (p : Fin (s.length * kd)) (r : Fin (n * kd)) => skelRow kern pts kd s p (r / kd) (r % kd)) + shift • (1 : Matrix (Fin (n * kd)) (Fin (n * kd)) ℝ) := by
    ext r c
    rw [Matrix.add_apply, Matrix.smul_apply, Matrix.one_apply, Matrix.mul_apply]
    unfold entryMatrix lowRank
    congr 1
    · rw [sum_comm]
      refine sum_congr rfl fun q _ => ?_
      rw [Matrix.mul_apply, sum_mul]
      refine sum_congr rfl fun p _ => ?_
      simp
    · by_cases hrc : r = c
      · subst hrc; simp
      · rw [if_neg hrc, if_neg, smul_zero]
        rintro ⟨a, b⟩
        exact hrc (Fin.ext (by rw [← Nat.div_add_mod (r : Nat) kd, a, b, Nat.div_add_mod]))
  rw [e]
  exact Matrix.PosDef.posSemidef_add (hQ.conjTranspose_mul_mul_same _) (Matrix.PosDef.one.smul hs)

variable {d n : Nat} (hn : 0 < n) {coord : Nat → Nat → ℝ} {mlp : Int} {mls : ℝ}
  {rb : Option (H2Pack.Utils.Box ℝ)} {rnd : Nat → ℝ} {junk : Arr ℝ} {g : Nat → Nat → Nat} {fuel : Nat} {P : Partitioned ℝ}
  (h : partitionPoints d d n coord mlp mls rb rnd junk g fuel = .ok P) {J : JIT ℝ} (H : Loaded J P n d)

include hn h H

/-- **C95** (solver).  Under the hypotheses of `C95_low_rank` conjugate gradients with the preconditioner solve every positive definite system of the size of the
kernel matrix to every tolerance in at most as many iterations as there are unknowns. -/
theorem C95_pcg {lp : H2Pack.ULV.Lapack ℝ} (hL : lp.Correct) (hD : lp.Definite) {lq : H2Pack.SPD.Lapack2} (hQ : lq.Correct)
    (hk : ∀ x y a b, J.kern x y a b = J.kern y x b a) {shift : ℝ} (hs : 0 < shift) {rank : Nat} {r : Nat → Nat} {s0 : List Nat} {t : Nat}
    {E : Env} (ht : 1 ≤ E.nThread) (hkt : J.R.kdim = 1 ∨ E.nThread = 1) (ho1 : E.ordS.Perm (List.range E.nThread)) (ho2 : E.ordC.Perm (List.range E.nThread))
    (hr : Returns (fun fuel => H2Pack.Utils.randSample r n rank fuel) (s0, t)) :
    ∃ s : List Nat, s.length = rank ∧ s.Nodup ∧ (∀ x ∈ s, x < n) ∧
      ((∃ w : ℝ, 0 < w ∧ ∃ y, y ≠ 0 ∧ skelBlock J.kern (orig d coord) J.R.kdim s *ᵥ y = w • y) →
      ∃ L : Precond, Returns (build lp lq J E rank shift r) (some L) ∧
        ∀ (gp : (Nat → Nat) × (Nat → Nat)) (pb px x : Nat → ℝ) (A : Matrix (Fin (n * J.R.kdim)) (Fin (n * J.R.kdim)) ℝ), A.PosDef →
          ∀ (b x0 p0 : Fin (n * J.R.kdim) → ℝ) (tol : ℝ) (maxIter : Nat) (h0 : Nat → ℝ), 0 ≤ tol → n * J.R.kdim ≤ maxIter →
          ∃ o, pcg ⟨fun v => A *ᵥ v, some fun v i => apply J.R L gp pb px x (arr v) i, b, x0, tol, maxIter⟩ p0 h0 = some o ∧ o.flag = 0 ∧
            o.iter ≤ n * J.R.kdim ∧ norm2 (b - A *ᵥ o.x) ≤ norm2 b * tol) := by
  obtain ⟨s, s1, s2, s3, s4⟩ := C95_low_rank hn h H hL hD hQ hk hs ht hkt ho1 ho2 hr
  refine ⟨s, s1, s2, s3, fun hw => ?_⟩
  obtain ⟨L, top, Q, b1, -, b2, -, b3⟩ := s4 hw
  refine ⟨L, b1, fun gp pb px x A hA b x0 p0 tol maxIter h0 htol hm => ?_⟩
  obtain ⟨o, o1, o2, o3, o4, -⟩ := pcg_solver hA (lowRank_posDef (kern := J.kern) (pts := orig d coord) (n := n) hs b2) (M := fun v i => apply J.R L gp pb px x (arr v) i) (fun v => by
    refine (entryMatrix_mulVec H.kdim (b3 gp pb px x (arr v))).trans ?_
    funext t
    exact dif_pos t.2) b x0 p0 htol hm h0
  exact ⟨o, o1, o2, o3, o4⟩

end H2Pack.LRD
