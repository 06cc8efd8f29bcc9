import Verif.Props.Entries
import Verif.Props.ULV2

set_option linter.unusedSectionVars false

/-!
# C49: from the partitioning in HSS mode to the ULV solvers
-/

namespace H2Pack.Part
open H2Pack.Utils (Box checkBoxAdmissible)

section
variable {K : Type}

/-- All pairs of an element and a later element. -/
def pairsOf : List Nat → List (Nat × Nat)
  | [] => []
  | x :: xs => xs.map (fun y => (x, y)) ++ pairsOf xs

theorem mem_pairsOf (l : List Nat) (x : Nat × Nat) :
    x ∈ pairsOf l ↔ ∃ i j, i < j ∧ j < l.length ∧ x.1 = l.getD i 0 ∧ x.2 = l.getD j 0 := by
  induction l with
  | nil => simp [pairsOf]
  | cons y l ih =>
    rw [pairsOf, List.mem_append, ih, List.mem_map]
    constructor
    · rintro (⟨z, hz, rfl⟩ | ⟨i, j, h1, h2, h3, h4⟩)
      · obtain ⟨k, hk, he⟩ := List.getElem_of_mem hz
        exact ⟨0, k + 1, by omega, by simp; omega, rfl, by simp [List.getD, hk, he]⟩
      · exact ⟨i + 1, j + 1, by omega, by simp; omega, by simpa using h3, by simpa using h4⟩
    · rintro ⟨i, j, h1, h2, h3, h4⟩
      obtain ⟨j, rfl⟩ : ∃ j', j = j' + 1 := ⟨j - 1, by omega⟩
      simp only [List.length_cons] at h2
      have hj : j < l.length := by omega
      rcases i with _ | i
      · left
        refine ⟨l[j], List.getElem_mem hj, ?_⟩
        have e2 : x.2 = l[j] := by simpa [List.getD, hj] using h4
        exact Prod.ext h3.symm e2.symm
      · right
        exact ⟨i, j, by omega, hj, by simpa using h3, by simpa using h4⟩

theorem forEach_app {A : Arr K} (f : Nat → Pairs → Res Pairs) (g : Nat → List (Nat × Nat)) : ∀ (l : List Nat),
    (∀ x ∈ l, ∀ s, f x s = .ok ((frameS A).app s (g x, []))) → ∀ s, forEach f l s = .ok ((frameS A).app s (l.flatMap g, [])) := by
  intro l
  induction l with
  | nil => intro _ s; rw [List.flatMap_nil, (frameS A).app0]; rfl
  | cons x l ih =>
    intro h s
    rw [forEach, h x (by simp), Res.bind_ok, ih (fun y hy => h y (by simp [hy])), (frameS A).appAdd]
    simp [Delta.add]

theorem forPairs_app {A : Arr K} (f : Nat → Nat → Pairs → Res Pairs) : ∀ (l : List Nat),
    l.Pairwise (fun x y => ∀ s, f x y s = .ok ((frameS A).app s ([(x, y)], []))) → ∀ s, forPairs f l s = .ok ((frameS A).app s (pairsOf l, [])) := by
  intro l
  induction l with
  | nil => intro _ s; rw [pairsOf, (frameS A).app0]; rfl
  | cons x l ih =>
    intro h s
    rw [List.pairwise_cons] at h
    rw [forPairs, forEach_app (A := A) (f x) (fun y => [(x, y)]) l (fun y hy s => h.1 y hy s), Res.bind_ok, ih h.2, (frameS A).appAdd, pairsOf]
    simp only [Delta.add, List.append_nil]
    rw [List.map_eq_flatMap]

variable {A : Arr K} {n : Nat}

/-- The search from a node to itself when all pairs of siblings pass the test. -/
theorem calcPairs_exact (T : ClusterTree A n) (adm : Nat → Nat → Bool)
    (hadm : ∀ v < A.nNode, (kids A v).Pairwise (fun c d => adm c d = true)) :
    ∀ (fuel a : Nat), a < A.nNode → a + a < fuel → ∃ L : List (Nat × Nat),
      (∀ s, calcPairs A adm 0 fuel a a s = .ok ((frameS A).app s (L, []))) ∧ ∀ x, x ∈ L ↔ ∃ v, Desc A v a ∧ x ∈ pairsOf (kids A v) := by
  intro fuel
  induction fuel with
  | zero => intro a _ h; omega
  | succ fuel ih =>
    intro a ha hf
    have hfun : ∀ pv, calcPairs A adm 0 (fuel+1) a a pv = if A.nChild a = 0 then .ok pv else
        (forEach (fun c pv => calcPairs A adm 0 fuel c c pv) (kids A a) pv >>=
          forPairs (fun c d pv => calcPairs A adm 0 fuel c d pv) (kids A a)) := by
      intro pv
      rw [calcPairs, if_pos ⟨ha, ha⟩, if_pos rfl]
    by_cases h0 : A.nChild a = 0
    · refine ⟨[], fun s => by rw [hfun, if_pos h0, (frameS A).app0], fun x => ⟨fun h => by simp at h, ?_⟩⟩
      rintro ⟨v, hv, hx⟩
      have hk := kids_nil_iff.2 h0
      cases hv with
      | refl => rw [hk] at hx; simp [pairsOf] at hx
      | step h1 _ => rw [hk] at h1; simp at h1
    · have hch : ∀ c, ∃ L : List (Nat × Nat), c ∈ kids A a → (∀ s, calcPairs A adm 0 fuel c c s = .ok ((frameS A).app s (L, []))) ∧
          ∀ x, x ∈ L ↔ ∃ v, Desc A v c ∧ x ∈ pairsOf (kids A v) := by
        intro c
        by_cases hc : c ∈ kids A a
        · obtain ⟨L, h⟩ := ih c (T.kid_lt ha hc) (by have := T.childLt a ha c hc; omega)
          exact ⟨L, fun _ => h⟩
        · exact ⟨[], fun h => absurd h hc⟩
      choose G hG using hch
      have e1 := forEach_app (A := A) (fun c pv => calcPairs A adm 0 fuel c c pv) G (kids A a) (fun c hc s => (hG c hc).1 s)
      have e2 := forPairs_app (A := A) (fun c d pv => calcPairs A adm 0 fuel c d pv) (kids A a)
        (((hadm a ha).and (T.kids_pairwise ha h0)).imp_of_mem (fun {c d} hc hd hcd s => by
          have hne : c ≠ d := by
            rintro rfl
            have := T.clusterLe c (T.kid_lt ha hc)
            omega
          have hf' : 0 < fuel := by have := T.childLt a ha c hc; omega
          obtain ⟨f, rfl⟩ : ∃ f, fuel = f + 1 := ⟨fuel - 1, by omega⟩
          show calcPairs A adm 0 (f+1) c d s = _
          rw [calcPairs, if_pos ⟨T.kid_lt ha hc, T.kid_lt ha hd⟩, if_neg hne, if_pos ⟨hcd.1, Nat.zero_le _, Nat.zero_le _⟩]
          simp [frameS]))
      refine ⟨(kids A a).flatMap G ++ pairsOf (kids A a), fun s => ?_, fun x => ?_⟩
      · rw [hfun, if_neg h0, e1, Res.bind_ok, e2, (frameS A).appAdd]
        simp [Delta.add]
      · rw [List.mem_append, List.mem_flatMap]
        constructor
        · rintro (⟨c, hc, hx⟩ | hx)
          · obtain ⟨v, hv, hx⟩ := ((hG c hc).2 x).1 hx
            exact ⟨v, Desc.step hc hv, hx⟩
          · exact ⟨a, Desc.refl a, hx⟩
        · rintro ⟨v, hv, hx⟩
          cases hv with
          | refl => exact Or.inr hx
          | step h1 h2 => exact Or.inl ⟨_, h1, ((hG _ h1).2 x).2 ⟨v, h2, hx⟩⟩

end

section
variable {K : Type} [Field K] [LinearOrder K] [IsStrictOrderedRing K] {n : Nat}

/-- Under the hypotheses of C12 every two children of a node pass the HSS test. -/
theorem hss_siblings_adm (ptDim xptDim : Nat) (coord : Nat → Nat → K) (mlp : Nat) (mls : K) (hmls : 4 / 10^6 ≤ mls) (box : Box K)
    (hcube : ∀ j < ptDim, box.ext 0 ≤ box.ext j) (R : Partitioned K) (O : Outcome ptDim xptDim n coord mlp mls box R) :
    ∀ v < R.arr.nNode, (kids R.arr v).Pairwise (fun c d => checkBoxAdmissible (R.arr.enbox c) (R.arr.enbox d) ptDim alphaHSS = true) := by
  have T := O.tree
  set A := R.arr with hA
  have hcubes : ∀ k v, v + k = A.nNode - 1 → ∀ j < ptDim, (A.enbox v).ext 0 ≤ (A.enbox v).ext j := by
    intro k
    induction k using Nat.strong_induction_on with
    | _ k ih =>
      intro v hv j hj
      rcases Nat.eq_zero_or_pos k with h0 | hk
      · have e : v = A.nNode - 1 := by omega
        rw [e, O.rootBox]; exact hcube j hj
      · obtain ⟨w, hw, hp, hm⟩ := T.childOfParent v (by omega)
        have hlt := T.childLt w hw v hm
        have := ih (A.nNode - 1 - w) (by omega) w (by omega) j hj
        obtain ⟨r, _, hr⟩ := O.childBox w hw v hm
        rw [hr]
        simp only [subBox]
        linarith
  intro v hv
  by_cases h0 : A.nChild v = 0
  · rw [kids_nil_iff.2 h0]; exact List.Pairwise.nil
  · refine (O.sibling v hv).imp (fun hs => sib_admissible hs (fun j hj => ?_))
    have h1 := (O.inner v hv h0).2
    have h2 := hcubes (A.nNode - 1 - v) v (by omega) j hj
    linarith

/-- **C12** (exact list).  Under the hypotheses of `C12_hss_siblings` the HSS pairs are exactly the pairs (earlier child, later child) of
every node. -/
theorem C12_hss_pairs_exact (ptDim xptDim : Nat) (coord : Nat → Nat → K) (mlp : Nat) (mls : K) (hmls : 4 / 10^6 ≤ mls) (box : Box K)
    (hcube : ∀ j < ptDim, box.ext 0 ≤ box.ext j) (R : Partitioned K) (O : Outcome ptDim xptDim n coord mlp mls box R)
    (h2 : 2 ≤ R.arr.nChild (R.arr.nNode - 1)) (fuel : Nat) (hf : 2 * R.arr.nNode ≤ fuel) :
    ∃ pv, hssPairs ptDim R.arr fuel = .ok pv ∧ pv.inadm = [] ∧ pv.minAdm = 1 ∧ pv.adm.Nodup ∧
      (∀ a b, (a, b) ∈ pv.adm ↔ ∃ v < R.arr.nNode, ∃ k l, k < l ∧ l < R.arr.nChild v ∧ a = (kids R.arr v).getD k 0 ∧ b = (kids R.arr v).getD l 0) ∧
      MV.DistinctPairs R.arr.nNode pv.adm ∧
      ∀ p < n, ∀ q < n, (blocks R.arr pv).countP (fun x => Holds R.arr p q x) = 1 := by
  obtain ⟨pv, h1, e2, hmin, hsib, hcov⟩ := C12_hss_siblings ptDim xptDim coord mlp mls hmls box hcube R O h2 fuel hf
  have T := O.tree
  have hadm := hss_siblings_adm ptDim xptDim coord mlp mls hmls box hcube R O
  have hr : R.arr.nNode - 1 < R.arr.nNode := by have := T.nonempty; omega
  obtain ⟨L, l1, l2⟩ := calcPairs_exact T (fun a b => checkBoxAdmissible (R.arr.enbox a) (R.arr.enbox b) ptDim alphaHSS) hadm fuel
    (R.arr.nNode - 1) hr (by omega)
  have eL : pv.adm = L := by
    unfold hssPairs at h1
    rw [l1, Res.bind_ok] at h1
    split at h1
    · rw [← Res.ok.inj h1]; simp [frameS]
    · simp at h1
  have hlt : ∀ x ∈ pv.adm, x.1 < R.arr.nNode ∧ x.2 < R.arr.nNode ∧ x.1 ≠ x.2 := by
    intro x hx
    obtain ⟨g1, v, hv, g2, g3⟩ := hsib x.1 x.2 hx
    exact ⟨T.kid_lt hv g2, T.kid_lt hv g3, g1⟩
  obtain ⟨d1, _⟩ := distinct_of_blocks T pv hlt (by rw [e2]; simp) hcov
  refine ⟨pv, h1, e2, hmin, ?_, ?_, d1, hcov⟩
  · rw [List.nodup_iff_injective_getElem]
    intro i j hij
    exact Fin.ext (d1.2 i.1 i.2 j.1 j.2 (Or.inl hij))
  · intro a b
    rw [eL, l2]
    constructor
    · rintro ⟨v, hv, hx⟩
      obtain ⟨k, l, q1, q2, q3, q4⟩ := (mem_pairsOf _ _).1 hx
      have : (kids R.arr v).length = R.arr.nChild v := by unfold kids; simp
      exact ⟨v, by have := T.desc_le hv hr; omega, k, l, q1, by omega, q3, q4⟩
    · rintro ⟨v, hv, k, l, q1, q2, q3, q4⟩
      have : (kids R.arr v).length = R.arr.nChild v := by unfold kids; simp
      exact ⟨v, T.desc_root hv, (mem_pairsOf _ _).2 ⟨k, l, q1, by omega, q3, q4⟩⟩

end
end H2Pack.Part

namespace H2Pack.ULV
open H2Pack.MV
open H2Pack.Part (Partitioned Outcome hssPairs inadmLists kids blocks Holds)
open H2Pack.Utils (Box Interleaving)
open Matrix
open Finset

section
variable {K : Type} [Field K]

/-- There is exactly one represented matrix. -/
theorem represents_exists {R : Rep K} (h : WF R) (W : Nat → Nat → Nat → K) (shift : K) :
    ∃ A : Matrix (Fin R.size) (Fin R.size) K, Represents R W shift A := by
  obtain ⟨e, _, hr⟩ := represents_iff (W := W) h shift
  refine ⟨(AllM R W shift).submatrix e.symm e.symm, (hr _).2 ?_⟩
  simp

/-- The matrix product of the represented matrix is what `H2P_matvec` computes, plus the shift. -/
theorem mulVec_matvec {R : Rep K} (h : WF R) {W : Nat → Nat → Nat → K} (hW : Nested R W) {shift : K}
    {A : Matrix (Fin R.size) (Fin R.size) K} (hA : Represents R W shift A) (E : Env K) (hE : E.Valid R)
    (g : (Nat → Nat) × (Nat → Nat)) (dx dy x : Nat → K) (r : Fin R.size) :
    (A *ᵥ fun q : Fin R.size => x q) r = matvec R E g dx dy x r + shift * x r := by
  have hsz : R.size = R.nPoint * R.kdim := rfl
  obtain ⟨i', hi', a, ha, er⟩ := row_split (n := R.nPoint) (kd := R.kdim) r.2
  obtain ⟨i, hi, hci⟩ := perm_surj h.perm hi'
  rw [← hci] at er
  have C := (C20_matvec h hW E hE g dx dy x).1 i hi a ha
  obtain ⟨e, he, _⟩ := represents_iff (W := W) h shift
  rw [er, C]
  unfold Matrix.mulVec dotProduct
  rw [← Equiv.sum_comp e]
  have hterm : ∀ q : Fin R.size, A r (e q) * x (e q) =
      (fun k => shifted R W shift (i * R.kdim + a) k * x (R.coordIdx (k / R.kdim) * R.kdim + k % R.kdim)) q.1 := by
    intro q
    obtain ⟨j, hj, b, hb, eq⟩ := row_split (n := R.nPoint) (kd := R.kdim) q.2
    rw [hA i hi a ha j hj b hb r (e q) er (he j hj b hb q eq), he j hj b hb q eq]
    dsimp only
    rw [eq, (div_mod_row hb).1, (div_mod_row hb).2]
  rw [sum_congr rfl (fun q _ => hterm q), Finset.sum_range (n := R.size) (fun k => shifted R W shift (i * R.kdim + a) k *
    x (R.coordIdx (k / R.kdim) * R.kdim + k % R.kdim)) |>.symm, hsz, sum_rows]
  have key : ∀ j ∈ range R.nPoint, ∑ b ∈ range R.kdim, shifted R W shift (i * R.kdim + a) (j * R.kdim + b) *
      x (R.coordIdx ((j * R.kdim + b) / R.kdim) * R.kdim + (j * R.kdim + b) % R.kdim) =
      ∑ b ∈ range R.kdim, entry R W (i * R.kdim + a) (j * R.kdim + b) * x (R.coordIdx j * R.kdim + b) +
      if j = i then shift * x (R.coordIdx i * R.kdim + a) else 0 := by
    intro j hj
    have h1 : ∀ b ∈ range R.kdim, shifted R W shift (i * R.kdim + a) (j * R.kdim + b) *
        x (R.coordIdx ((j * R.kdim + b) / R.kdim) * R.kdim + (j * R.kdim + b) % R.kdim) =
        entry R W (i * R.kdim + a) (j * R.kdim + b) * x (R.coordIdx j * R.kdim + b) +
        if b = a then (if j = i then shift * x (R.coordIdx i * R.kdim + a) else 0) else 0 := by
      intro b hb
      have hb' := mem_range.1 hb
      rw [(div_mod_row hb').1, (div_mod_row hb').2]
      unfold shifted
      by_cases hba : b = a
      · by_cases hji : j = i
        · subst hba hji; simp; ring
        · rw [if_neg (fun hc => hji (mul_add_inj ha hb' hc).1.symm)]; simp [hba, hji]
      · rw [if_neg (fun hc => hba (mul_add_inj ha hb' hc).2.symm)]; simp [hba]
    rw [sum_congr rfl h1, sum_add_distrib, sum_ite_eq' (range R.kdim) a, if_pos (mem_range.2 ha)]
  rw [sum_congr rfl key, sum_add_distrib, sum_ite_eq' (range R.nPoint) i, if_pos (mem_range.2 hi)]

/-- **C49** (LU, observable form).  After a successful LU factorization, whatever right-hand side `b` is solved, multiplying the solution
with `H2P_matvec` and adding `shift` times the solution gives `b` back. -/
theorem C49_lu_solve_then_matvec {R : Rep K} {Lp : Lapack K} (hL : Lp.Correct) (lg : K → K) (H : HSS R)
    {getB getD : Nat → Nat → Option (Blk K)} (hb : Blocks R getB getD) (shift : K) {ord up down : Nat → List Nat}
    (ho : Order R ord) (hu : Order R up) (hd : Order R down)
    {st : FSt K} (hst : luFactorize Lp lg R getB getD shift ord = .ok st) (hok : st.ok = true) (E : Env K) (hE : E.Valid R)
    (g g' : (Nat → Nat) × (Nat → Nat)) (dp dx b dx' dy' : Nat → K) :
    ∃ x, luSolve Lp R st.fac up down g dp dx 3 b = .ok (some x) ∧
      ∀ r < R.nPoint * R.kdim, matvec R E g' dx' dy' x r + shift * x r = b r := by
  have hW := basis_nested H.wf
  obtain ⟨A, hA⟩ := represents_exists H.wf (basis R) shift
  obtain ⟨_, x, e1, e2, _⟩ := C32_lu_solve hL lg H hW hb shift ho hu hd hst hok hA g dp dx b
  refine ⟨x, e1, fun r hr => ?_⟩
  have := congrFun e2 ⟨r, hr⟩
  rw [mulVec_matvec H.wf hW hA E hE g' dx' dy' x] at this
  exact this

/-- **C49** (Cholesky, observable form). -/
theorem C49_chol_solve_then_matvec {R : Rep K} {Lp : Lapack K} (hL : Lp.Correct) (lg : K → K) (H : HSS R) (hD : SymD R)
    {getB getD : Nat → Nat → Option (Blk K)} (hb : Blocks R getB getD) (shift : K) {ord up down : Nat → List Nat}
    (ho : Order R ord) (hu : Order R up) (hd : Order R down)
    {st : FSt K} (hst : cholFactorize Lp lg R getB getD shift ord = .ok st) (hok : st.ok = true) (E : Env K) (hE : E.Valid R)
    (g g' : (Nat → Nat) × (Nat → Nat)) (dp dx b dx' dy' : Nat → K) :
    ∃ x, cholSolve Lp R st.fac up down g dp dx 3 b = .ok (some x) ∧
      ∀ r < R.nPoint * R.kdim, matvec R E g' dx' dy' x r + shift * x r = b r := by
  have hW := basis_nested H.wf
  obtain ⟨A, hA⟩ := represents_exists H.wf (basis R) shift
  obtain ⟨_, x, e1, e2, _⟩ := C33_chol_solve hL lg H hD hW hb shift ho hu hd hst hok hA g dp dx b
  refine ⟨x, e1, fun r hr => ?_⟩
  have := congrFun e2 ⟨r, hr⟩
  rw [mulVec_matvec H.wf hW hA E hE g' dx' dy' x] at this
  exact this

end

section
variable {K : Type} [Field K] [LinearOrder K] [IsStrictOrderedRing K]

/-- **C49** (construction).  Partitioning any points into a tree whose root has at least two children, searching the HSS pairs, building
the neighbour lists and the block metadata gives an HSS representation whose blocks are found by the lookups, whatever the
interleaving of the threads that build the blocks, in AOT and in JIT mode.  The remaining hypotheses are about what the basis
construction supplies: at least one skeleton point per node, matching basis sizes, at most as many columns as rows. -/
theorem C49_hss_build (J : JIT K) (ptDim xptDim : Nat) (coord : Nat → Nat → K) (mlp : Nat) (mls : K) (hmls : 4 / 10^6 ≤ mls) (box : Box K)
    (hcube : ∀ j < ptDim, box.ext 0 ≤ box.ext j) (P : Partitioned K) (O : Outcome ptDim xptDim J.R.nPoint coord mlp mls box P)
    (h2 : 2 ≤ P.arr.nChild (P.arr.nNode - 1)) (fuel : Nat) (hf : 2 * P.arr.nNode ≤ fuel)
    (harr : J.R.arr = P.arr) (pv : H2Pack.Part.Pairs) (hpv : hssPairs ptDim P.arr fuel = .ok pv)
    (hadm : J.R.adm = pv.adm) (hinadm : J.R.inadm = pv.inadm) (hmin : J.R.minAdm = pv.minAdm)
    (mx : Nat) (f : Nat → List Nat) (hl : inadmLists ptDim mx 1 P.arr = .ok f) (hmark : J.R.mark = fun v => (f v).length)
    (kdim : 0 < J.R.kdim) (perm : ((List.range J.R.nPoint).map J.R.coordIdx).Perm (List.range J.R.nPoint)) (simd : 0 < J.simd)
    (jpos : ∀ v < J.R.arr.nNode, J.R.minAdm ≤ J.R.arr.level v → 0 < J.jn v)
    (rankJ : ∀ v < J.R.arr.nNode, (J.R.U v).ncol = J.jn v * J.R.kdim)
    (uLeaf : ∀ v < J.R.arr.nNode, J.R.minAdm ≤ J.R.arr.level v → J.R.arr.nChild v = 0 → (J.R.U v).nrow = J.npt v * J.R.kdim)
    (uInner : ∀ v < J.R.arr.nNode, J.R.minAdm ≤ J.R.arr.level v → J.R.arr.nChild v ≠ 0 → (J.R.U v).nrow = off J.R v (J.R.arr.nChild v))
    (tall : ∀ v < J.R.arr.nNode, 1 ≤ J.R.arr.level v → (J.R.U v).ncol ≤ (J.R.U v).nrow)
    (bimv : ∀ f, J.bimv = some f → BimvSpec J.simd J.xdim J.R.kdim J.kern f)
    (small : J.bimv = none → ∀ v < J.R.arr.nNode, J.npt v * J.R.kdim * J.R.kdim ≤ 16384 ∧ J.jn v * J.R.kdim * J.R.kdim ≤ 16384)
    (E : MetaEnv) (hE : E.Valid J.R.arr.nNode) :
    HSS J.aot ∧ J.Ok ∧ ∃ MB MD, Returns (generateB J false E) MB ∧ Returns (generateD J false E) MD ∧
      ∀ wB, Interleaving E.nTask (worksB MB) wB → ∀ wD, Interleaving E.nTask (worksD J.R.arr.nLeaf MD) wD →
      ∀ (dB dD dstB dstD : Nat → K) (jit : Bool),
        Blocks J.aot (getBij J MB jit (runB J MB wB dB) dstB) (getDij J MD jit (runD J MD wD dD) dstD) := by
  obtain ⟨pv', h1, e2, hm1, hnd, hex, hdis, hcov⟩ := H2Pack.Part.C12_hss_pairs_exact ptDim xptDim coord mlp mls hmls box hcube P O h2 fuel hf
  rw [hpv] at h1
  have := Res.ok.inj h1
  subst this
  obtain ⟨pv', h1, hmk⟩ := H2Pack.Part.C45_hss_marks ptDim xptDim coord mlp mls hmls box hcube P O h2 fuel hf mx f hl
  rw [hpv] at h1
  have := Res.ok.inj h1
  subst this
  have T : H2Pack.Part.ClusterTree J.R.arr J.R.nPoint := by rw [harr]; exact O.tree
  have hne : J.R.adm ≠ [] := by
    rw [hadm]
    have hr : P.arr.nNode - 1 < P.arr.nNode := by have := O.tree.nonempty; omega
    have := (hex _ _).2 ⟨P.arr.nNode - 1, hr, 0, 1, by omega, by omega, rfl, rfl⟩
    intro h
    rw [h] at this
    simp at this
  have hlev : ∀ x ∈ J.R.adm, J.R.minAdm ≤ J.R.arr.level x.1 := by
    intro x hx
    rw [hadm] at hx
    obtain ⟨v, hv, k, l, q1, q2, q3, q4⟩ := (hex x.1 x.2).1 hx
    have hk : x.1 ∈ kids P.arr v := by
      rw [q3]
      have hlen : (kids P.arr v).length = P.arr.nChild v := by unfold kids; simp
      have : k < (kids P.arr v).length := by omega
      rw [show (kids P.arr v).getD k 0 = (kids P.arr v)[k] by simp [List.getD, this]]
      exact List.getElem_mem this
    rw [hmin, hm1, harr, O.tree.childLevel v hv _ hk]
    omega
  have ok : J.Ok := by
    refine jit_ok J T kdim perm simd jpos rankJ uLeaf uInner ?_ ?_ bimv small
    · intro x hx
      have hx' := hx
      rw [hadm] at hx'
      have a := hdis.1 x hx'
      have b := hmk x.1 x.2 hx'
      rw [harr, hmark]
      have c := hlev x hx
      rw [harr] at c
      exact ⟨a.1, a.2.1, le_trans c (le_max_left _ _), b.1, b.2⟩
    · intro x hx
      rw [hinadm, e2] at hx
      simp at hx
  have hdis' : DistinctPairs J.R.arr.nNode J.R.adm := by rw [hadm, harr]; exact hdis
  obtain ⟨l1, l2, l3⟩ := H2Pack.Part.leaf_inj T
  obtain ⟨MB, hMB, hB⟩ := C27_get_Bij J E hE hdis' hne
  obtain ⟨MD, hMD, hD⟩ := C27_get_Dij J E hE (fun i hi => (l2 i hi).1) l3 l1 (by rw [hinadm, e2]; exact ⟨by simp, by simp⟩)
  refine ⟨⟨ok.wf, by show J.R.minAdm = 1; rw [hmin, hm1], ?_, by show J.R.inadm = []; rw [hinadm, e2], by show J.R.adm.Nodup; rw [hadm]; exact hnd, ?_, tall⟩,
    ok, MB, MD, hMB, hMD, ?_⟩
  · show J.R.arr.nChild (J.R.arr.nNode - 1) ≠ 0
    rw [harr]; omega
  · intro a b
    show (a, b) ∈ J.R.adm ↔ ∃ v < J.R.arr.nNode, ∃ k l, k < l ∧ l < J.R.arr.nChild v ∧ a = (kids J.R.arr v).getD k 0 ∧ b = (kids J.R.arr v).getD l 0
    rw [hadm, harr]
    exact hex a b
  · intro wB hwB wD hwD dB dD dstB dstD jit
    exact ⟨fun i h => ((hB wB hwB dB dstB jit).1 i h).1, fun i h => (hD wD hwD dD dstD jit).1 i h⟩

/-- **C49** (symmetry).  A kernel with `K(s,t) = K(t,s)ᵀ` gives symmetric diagonal blocks. -/
theorem C49_symmetric_blocks (J : JIT K) (sym : ∀ s t a b, J.kern s t a b = J.kern t s b a) : SymD J.aot := by
  intro i hi a ha b hb
  have e : J.aot.D i = J.block (J.cPts (J.R.leaf i)) (J.cPts (J.R.leaf i)) := if_pos hi
  rw [e]
  exact sym _ _ _ _

end

/-- A concrete case of `C49_hss_build`: six points on a line. -/
example : ∃ J : JIT ℚ, J.R.nPoint = 6 ∧ J.R.adm ≠ [] ∧ HSS J.aot ∧ SymD J.aot ∧ J.Ok ∧ ∃ MB MD,
    Returns (generateB J false ⟨3, 2, 2, fun _ => 0, fun _ => 0, List.range J.R.arr.nNode⟩) MB ∧
    Returns (generateD J false ⟨3, 2, 2, fun _ => 0, fun _ => 0, List.range J.R.arr.nNode⟩) MD ∧
      ∀ wB, Interleaving 3 (worksB MB) wB → ∀ wD, Interleaving 3 (worksD J.R.arr.nLeaf MD) wD →
      ∀ (dB dD dstB dstD : Nat → ℚ) (jit : Bool),
        Blocks J.aot (getBij J MB jit (runB J MB wB dB) dstB) (getDij J MD jit (runD J MD wD dD) dstD) := by
  obtain ⟨R, f, O, h2, hl⟩ := line_lists
  have hcube : ∀ j < 1, H2Pack.Part.lineBox.ext 0 ≤ H2Pack.Part.lineBox.ext j := by
    intro j hj
    rw [show j = 0 by omega]
  obtain ⟨pv, hp, _, hm, _, hex, _⟩ := H2Pack.Part.C12_hss_pairs_exact 1 1 H2Pack.Part.lineCoord 1 (1/100) (by norm_num) H2Pack.Part.lineBox hcube R O h2 _ (le_refl _)
  let J0 : JIT ℚ := { demoJIT R.arr 6 (fun i => R.coord i 0) pv.adm pv.inadm pv.minAdm 1 none with kern := fun p q a b => (p 0 - q 0) * (p 0 - q 0) + a + b }
  let J := J0.withMark (fun v => (f v).length)
  have hU0 : ∀ v, (J.R.U v).ncol = 1 * 2 := fun v => rfl
  have hU1 : ∀ v, R.arr.nChild v = 0 → (J.R.U v).nrow = (R.arr.ptE v - R.arr.ptS v + 1) * 2 := by
    intro v h0
    show (if R.arr.nChild v = 0 then _ else _) = _
    rw [if_pos h0]
  have hU2 : ∀ v, R.arr.nChild v ≠ 0 → (J.R.U v).nrow = R.arr.nChild v * (1 * 2) := by
    intro v h0
    show (if R.arr.nChild v = 0 then _ else _) = _
    rw [if_neg h0]
  obtain ⟨b1, b2, b3⟩ := C49_hss_build J 1 1 H2Pack.Part.lineCoord 1 (1/100) (by norm_num) H2Pack.Part.lineBox hcube R O h2 _ (le_refl _) rfl pv hp rfl rfl rfl
    3 f hl rfl (show 0 < 2 by omega) (demo_perm 6) (show 0 < 4 by omega) (fun v _ _ => Nat.one_pos) (fun v _ => rfl)
    (fun v _ _ h0 => hU1 v h0)
    (by
      intro v _ _ h0
      rw [hU2 v h0]
      unfold off
      show R.arr.nChild v * (1 * 2) = ∑ _ ∈ range (R.arr.nChild v), 1 * 2
      simp)
    (by
      intro v _ _
      rw [hU0]
      by_cases h0 : R.arr.nChild v = 0
      · rw [hU1 v h0]; omega
      · rw [hU2 v h0]; omega)
    (by intro f hf; cases hf)
    (by
      intro _ v hv
      have h1 := O.tree.clusterLt v hv
      have h2 := O.tree.clusterLe v hv
      show ((R.arr.ptE v - R.arr.ptS v + 1) * 2 * 2 ≤ 16384) ∧ 1 * 2 * 2 ≤ 16384
      omega)
    ⟨3, 2, 2, fun _ => 0, fun _ => 0, List.range J.R.arr.nNode⟩ ⟨by show 1 ≤ 3; omega, List.Perm.refl _⟩
  refine ⟨J, rfl, ?_, b1, C49_symmetric_blocks J ?_, b2, b3⟩
  · have hr : R.arr.nNode - 1 < R.arr.nNode := by have := O.tree.nonempty; omega
    have := (hex _ _).2 ⟨R.arr.nNode - 1, hr, 0, 1, by omega, by omega, rfl, rfl⟩
    show pv.adm ≠ []
    intro h
    rw [h] at this
    simp at this
  · intro s t a b
    show (s 0 - t 0) * (s 0 - t 0) + (a : ℚ) + b = (t 0 - s 0) * (t 0 - s 0) + b + a
    ring

/-- A schedule for `H2P_matvec` on the real numbers. -/
noncomputable def realEnv (R : Rep ℝ) : Env ℝ where
  nThread := 2
  team := 2
  junk0 _ _ := 7
  junk1 _ _ := 7
  junkT _ _ := 7
  junkP _ _ := 7
  nrow0 _ := 7
  ncol1 _ := 7
  fwdOrd l := (R.levelList l).reverse
  bwdOrd l := (R.levelList l).reverse
  nB := R.adm.length
  blkB := id
  schedB := (List.range R.adm.length).map fun i => (i % 2, i)
  nD0 := R.arr.nLeaf
  blkD0 := id
  schedD0 := (List.range R.arr.nLeaf).map fun i => (i % 2, i)
  nD1 := R.inadm.length
  blkD1 := id
  schedD1 := (List.range R.inadm.length).map fun i => (i % 2, i)
  redOrd := [1, 0]

/-- A concrete case of the solves of C49. -/
example : ∃ (Lp : Lapack ℝ) (R : Rep ℝ) (E : Env ℝ) (getB getD : Nat → Nat → Option (Blk ℝ)) (ord : Nat → List Nat) (st st' : FSt ℝ),
    Lp.Correct ∧ HSS R ∧ SymD R ∧ Blocks R getB getD ∧ Order R ord ∧ E.Valid R ∧ R.adm ≠ [] ∧
      luFactorize Lp (fun x => Real.log |x|) R getB getD 0 ord = .ok st ∧ st.ok = true ∧
      cholFactorize Lp (fun x => Real.log |x|) R getB getD 0 ord = .ok st' ∧ st'.ok = true := by
  obtain ⟨Lp, hL, hP⟩ := lapack_exists
  obtain ⟨st', e', h'⟩ := C48_chol_iff_posDef hL hP (fun x => Real.log |x|) (two_hss 4 1 4 1) (two_symD 4 1 4 1) (two_nested 4 1 4 1) (two_blocks 4 1 4 1) 0 (two_order 4 1 4 1)
    (two_represents 4 1 4 1 0)
  obtain ⟨st, e, h⟩ := C48_lu_posDef hL (fun x => Real.log |x|) (two_hss 4 1 4 1) (two_nested 4 1 4 1) (two_blocks 4 1 4 1) 0 (two_order 4 1 4 1)
    (two_represents 4 1 4 1 0) two_posDef
  refine ⟨Lp, twoLeaves 4 1 4 1, realEnv (twoLeaves 4 1 4 1), _, _, _, st, st', hL, two_hss 4 1 4 1, two_symD 4 1 4 1, two_blocks 4 1 4 1, two_order 4 1 4 1, ?_, ?_, e, h, e', h'.2 two_posDef⟩
  · exact {
      threads := by simp [realEnv]
      team := rfl
      fwd := fun _ => List.reverse_perm _
      bwd := fun _ => List.reverse_perm _
      cutB := ⟨rfl, rfl, by intro b _; simp [realEnv]⟩
      cutD0 := ⟨rfl, rfl, by intro b _; simp [realEnv]⟩
      cutD1 := ⟨rfl, rfl, by intro b _; simp [realEnv]⟩
      schedB := demo_sched _
      schedD0 := demo_sched _
      schedD1 := demo_sched _
      red := by show [1, 0].Perm (List.range 2); decide }
  · simp [twoLeaves]

end H2Pack.ULV
