import Verif.Proof.MatmulPer
import Verif.Props.Matmul
import Verif.Props.BuildPer2

/-!
# C56: periodic H2 matmul

`pos col ld r l` is where the caller stores entry `(r, l)` of a matrix with leading dimension `ld`; `Per.entry` is the matrix of a periodic
representation (`Spec/Periodic.lean`).
-/

set_option linter.unusedSectionVars false

namespace H2Pack.MV
open H2Pack.Part (Arr kids ClusterTree)
open Finset (range sum_congr mem_range)

section
variable {K : Type} [CommRing K]

namespace Per
variable {P : Per K}

/-- The product, for metadata that describe the pairs. -/
theorem matmul_of_meta (h : P.Ok) {W : Nat → Nat → Nat → K} (hW : Nested P.J.R W) {MB MD : Meta} (hM : P.PerMeta MB MD) (PE : Nat → PMEnv K)
    (hE : ∀ i, (PE i).E.Valid P.J.R) (g : (Nat → Nat) × (Nat → Nat)) (gx gy : Nat → Nat → K) (col : Bool) (mm nvec : Nat) (X : Nat → K) (ldx : Nat)
    (Y : Nat → K) (ldy : Nat) (hmm : 0 < mm) (hld : if col then P.J.R.nPoint * P.J.R.kdim ≤ ldy else nvec ≤ ldy) :
    ∃ Y', Returns (fun fuel => P.matmul MB MD PE g gx gy col mm nvec X ldx Y ldy fuel) Y' ∧
      (∀ l < nvec, ∀ i < P.J.R.nPoint, ∀ a < P.J.R.kdim, Y' (pos col ldy (P.J.R.coordIdx i * P.J.R.kdim + a) l) =
        ∑ j ∈ range P.J.R.nPoint, ∑ b ∈ range P.J.R.kdim,
          P.entry W (i * P.J.R.kdim + a) (j * P.J.R.kdim + b) * X (pos col ldx (P.J.R.coordIdx j * P.J.R.kdim + b) l)) ∧
      ∀ p, (∀ r < P.J.R.nPoint * P.J.R.kdim, ∀ l < nvec, p ≠ pos col ldy r l) → Y' p = Y p := by
  have hp : ((List.range P.J.R.nPoint).map P.J.R.coordIdx).Perm (List.range P.J.R.nPoint) := h.perm
  have Q := pmtIdx_pair P.J.R hp g
  have hpos : ∀ (r l : Nat), pos col (mmView P.J.R col mm).ld r l = (mmView P.J.R col mm).cell r l := by
    intro r l
    unfold pos View.cell mmView
    cases col <;> rfl
  have hpb : ∀ r < P.J.R.size, (pmtIdx P.J.R g).2 r < P.J.R.size := by
    intro r hr
    obtain ⟨p, hp', a, ha, rfl⟩ := row_split (show r < P.J.R.nPoint * P.J.R.kdim from hr)
    obtain ⟨i, hi, rfl⟩ := perm_surj hp hp'
    rw [Q.bwd i hi a ha]
    exact row_lt hi ha
  have key := mmLoop_spec (R := P.J.R) (R0 := P.J.R) (P := fun r l => ∑ q ∈ range P.J.R.size, P.entry W r q * X (pos col ldx ((pmtIdx P.J.R g).1 q) l)) rfl
    (fun i => P.mmCore MB MD (PE i)) (pmtIdx P.J.R g).1 (pmtIdx P.J.R g).2 gx gy col hmm X ldx ldy hld hpb (by
      intro i hi nv hnv _ px py hpx hpy r hr l hl
      have hV : (mmView P.J.R col mm).Good P.J.R.size nv := mmView_good P.J.R col hnv
      rw [hpos, mmCore_spec h hW hM (hE i) hV px py hr hl (by rw [← hpos]; exact hpy r hr l hl)]
      refine sum_congr rfl fun q hq => ?_
      rw [← hpx q (mem_range.1 hq) l hl, hpos])
  have hub : ¬ (0 < nvec ∧ (8 < P.J.xdim ∨ 8 < P.pdim)) := by
    have := h.xdim; have := h.pdim; omega
  obtain ⟨Y', e, g1, g2⟩ := key (nvec + 1) 0 Y (by omega)
  refine ⟨Y', ⟨nvec + 1, fun fuel hf => ?_⟩, ?_, g2⟩
  · obtain ⟨Y'', e'', q1, q2⟩ := key fuel 0 Y (by omega)
    show matmul P _ _ _ _ _ _ _ _ _ _ _ _ _ _ = _
    unfold matmul
    rw [if_neg hub, e'']
    congr 1
    funext p
    by_cases hpp : ∀ r < P.J.R.size, ∀ l < nvec, p ≠ pos col ldy r l
    · rw [q2 p hpp, g2 p hpp]
    · push Not at hpp
      obtain ⟨r, hr, l, hl, rfl⟩ := hpp
      rw [q1 r hr l hl, g1 r hr l hl]
  · intro l hl i hi a ha
    have hrr : P.J.R.coordIdx i * P.J.R.kdim + a < P.J.R.size := row_lt (perm_lt hp hi) ha
    rw [g1 _ hrr l hl, if_pos (Nat.zero_le _), Q.bwd i hi a ha]
    show ∑ q ∈ range (P.J.R.nPoint * P.J.R.kdim), _ = _
    rw [sum_rows]
    apply sum_congr rfl; intro j hj
    apply sum_congr rfl; intro b hb
    rw [Q.fwd j (mem_range.1 hj) b (mem_range.1 hb)]

/-- **C56.**  `H2P_matmul_periodic` on a periodic representation, for every number of vectors, every block width `mm_max_n_vec ≥ 1`, both layouts, every
leading dimension of the input and every sufficient leading dimension of the output, every order of the parallel iterations and all buffer contents: the
metadata functions return, the product terminates, column `l` of the output is the periodic H2 matrix times column `l` of the input (rows in the user's
order), and no other position of the output array is changed. -/
theorem C56_periodic_matmul (h : P.Ok) {W : Nat → Nat → Nat → K} (hW : Nested P.J.R W) {EB ED : MetaEnv}
    (hEB : EB.Valid P.J.R.arr.nNode) (hED : ED.Valid P.J.R.arr.nNode) (hne : P.J.R.adm ≠ []) :
    ∃ MB MD, Returns (generateB P.J true EB) MB ∧ Returns (generateD P.J true ED) MD ∧ (P.J.R.mark = MB.nAdm →
      ∀ (PE : Nat → PMEnv K), (∀ i, (PE i).E.Valid P.J.R) → ∀ (g : (Nat → Nat) × (Nat → Nat)) (gx gy : Nat → Nat → K) (col : Bool) (mm nvec : Nat)
        (X : Nat → K) (ldx : Nat) (Y : Nat → K) (ldy : Nat), 0 < mm → (if col then P.J.R.nPoint * P.J.R.kdim ≤ ldy else nvec ≤ ldy) →
        ∃ Y', Returns (fun fuel => P.matmul MB MD PE g gx gy col mm nvec X ldx Y ldy fuel) Y' ∧
          (∀ l < nvec, ∀ i < P.J.R.nPoint, ∀ a < P.J.R.kdim, Y' (pos col ldy (P.J.R.coordIdx i * P.J.R.kdim + a) l) =
            ∑ j ∈ range P.J.R.nPoint, ∑ b ∈ range P.J.R.kdim,
              P.entry W (i * P.J.R.kdim + a) (j * P.J.R.kdim + b) * X (pos col ldx (P.J.R.coordIdx j * P.J.R.kdim + b) l)) ∧
          ∀ p, (∀ r < P.J.R.nPoint * P.J.R.kdim, ∀ l < nvec, p ≠ pos col ldy r l) → Y' p = Y p) := by
  obtain ⟨MB, MD, b1, d1, _, hM⟩ := perMeta h hEB hED hne
  exact ⟨MB, MD, b1, d1, fun hm PE hE g gx gy col mm nvec X ldx Y ldy hmm hld =>
    matmul_of_meta h hW (hM hm) PE hE g gx gy col mm nvec X ldx Y ldy hmm hld⟩

/-- **C56.**  Column `l` of the output of `H2P_matmul_periodic` is what `H2P_matvec_periodic` (any threads, order, buffers, `krnl_mv` variant or not)
gives on column `l` of the input. -/
theorem C56_eq_matvec (h : P.Ok) {W : Nat → Nat → Nat → K} (hW : Nested P.J.R W) {EB ED : MetaEnv}
    (hEB : EB.Valid P.J.R.arr.nNode) (hED : ED.Valid P.J.R.arr.nNode) (hne : P.J.R.adm ≠ []) :
    ∃ MB MD, Returns (generateB P.J true EB) MB ∧ Returns (generateD P.J true ED) MD ∧ (P.J.R.mark = MB.nAdm →
      ∀ (PE : Nat → PMEnv K), (∀ i, (PE i).E.Valid P.J.R) → ∀ (g : (Nat → Nat) × (Nat → Nat)) (gx gy : Nat → Nat → K) (col : Bool) (mm nvec : Nat)
        (X : Nat → K) (ldx : Nat) (Y : Nat → K) (ldy : Nat), 0 < mm → (if col then P.J.R.nPoint * P.J.R.kdim ≤ ldy else nvec ≤ ldy) →
        ∃ Y', Returns (fun fuel => P.matmul MB MD PE g gx gy col mm nvec X ldx Y ldy fuel) Y' ∧
          ∀ l < nvec, ∀ (PV : PerEnv K), PV.Valid P.J.R → ∀ g' dx dy, ∃ y, P.matvec PV MB MD g' dx dy (fun q => X (pos col ldx q l)) = .ok y ∧
            ∀ r < P.J.R.nPoint * P.J.R.kdim, Y' (pos col ldy r l) = y r) := by
  obtain ⟨MB, MD, b1, d1, _, hM⟩ := perMeta h hEB hED hne
  refine ⟨MB, MD, b1, d1, fun hm PE hE g gx gy col mm nvec X ldx Y ldy hmm hld => ?_⟩
  obtain ⟨Y', q1, q2, _⟩ := matmul_of_meta h hW (hM hm) PE hE g gx gy col mm nvec X ldx Y ldy hmm hld
  refine ⟨Y', q1, fun l hl PV hPV g' dx dy => ?_⟩
  obtain ⟨y, y1, y2, _⟩ := matvec_of_meta h hW (hM hm) hPV g' dx dy (fun q => X (pos col ldx q l))
  refine ⟨y, y1, fun r hr => ?_⟩
  obtain ⟨p, hp', a, ha, rfl⟩ := row_split hr
  obtain ⟨i, hi, rfl⟩ := perm_surj h.perm hp'
  rw [q2 l hl i hi a ha, y2 i hi a ha]

end Per
end

/-- The hypotheses of C56 are met: the periodic system of `H2Pack.Per.cell_case` (four points, 108 admissible pairs) built with two threads, and
environments whose parallel loops run backwards. -/
example : ∃ (P : Per ℝ) (EB : MetaEnv) (MB : Meta) (PE : Nat → Per.PMEnv ℝ), P.Ok ∧ EB.Valid P.J.R.arr.nNode ∧ P.J.R.adm ≠ [] ∧
    Returns (generateB P.J true EB) MB ∧ P.J.R.mark = MB.nAdm ∧ (∃ W, Nested P.J.R W) ∧ ∀ i, (PE i).E.Valid P.J.R := by
  obtain ⟨S, pk, pv, sl, P, MB, MD, _, _, _, hB, _, _, _, _, _, hm, hne, E, hE, r1, _⟩ := H2Pack.Per.cell_case 2 (by omega)
  have hN := basis_nested (Per.flat_wf hB.ok)
  refine ⟨P, E, MB, fun _ => ⟨⟨fun l => (P.J.R.levelList l).reverse, fun l => (P.J.R.levelList l).reverse, (List.range P.J.R.arr.nNode).reverse,
    (List.range P.J.R.arr.nNode).reverse, fun _ _ => 5, fun _ _ => 6, fun _ _ => 7, fun _ _ => 8, fun _ => 0, fun _ => 0, fun _ _ _ => 9, fun _ _ _ => 10,
    fun _ _ => ⟨0, 0, 0, fun _ => 0⟩, fun _ _ => ⟨0, 0, 0, fun _ => 0⟩⟩, fun _ => 3⟩, hB.ok, hE, hne, r1, hm, ⟨_, hN.leaf, hN.inner⟩,
    fun i => ⟨fun l => List.reverse_perm _, fun l => List.reverse_perm _, List.reverse_perm _, List.reverse_perm _⟩⟩

end H2Pack.MV
