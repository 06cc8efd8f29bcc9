import Verif.Proof.BuildPer2
import Verif.Props.MatvecPer
import Mathlib.Tactic.IntervalCases

/-!
# C54, C55: constructed periodic representations and how well they approximate the periodic kernel matrix
-/

set_option linter.unusedSectionVars false

namespace H2Pack.Per
open H2Pack.Part (Arr kids ClusterTree PerPairs perPairs latShift Desc NoShift Holds leaves NoRoot)
open H2Pack.MV (JIT Per KMv MvSpec Mat MetaEnv generateB generateD Nested HasSkel WF)
open H2Pack.UJ (Input Slot Skeleton cands pt assemble finishUJ ujTask)
open Finset

/-! ## The lattice vectors -/

/-- **C54** (lattice).  In two and three dimensions the table of lattice vectors contains every vector with entries -1, 0, 1 exactly once. -/
theorem C54_lattice :
    (∀ a ∈ [-1, 0, 1], ∀ b ∈ [-1, 0, 1], ((List.range (nLattice 2)).filter (fun l => latticeZ 2 l 0 = a ∧ latticeZ 2 l 1 = b)).length = 1) ∧
    (∀ a ∈ [-1, 0, 1], ∀ b ∈ [-1, 0, 1], ∀ c ∈ [-1, 0, 1],
      ((List.range (nLattice 3)).filter (fun l => latticeZ 3 l 0 = a ∧ latticeZ 3 l 1 = b ∧ latticeZ 3 l 2 = c)).length = 1) ∧
    nLattice 2 = 3 ^ 2 ∧ nLattice 3 = 3 ^ 3 := by
  refine ⟨?_, ?_, rfl, rfl⟩ <;> decide +kernel

theorem lat_le : ∀ d l j, l < nLattice d → j < d → |latticeZ d l j| ≤ 1 := by
  intro d l j hl hj
  have hd : d = 2 ∨ d = 3 := by
    unfold nLattice at hl
    by_cases h2 : d = 2
    · exact Or.inl h2
    · rw [if_neg h2] at hl
      by_cases h3 : d = 3
      · exact Or.inr h3
      · rw [if_neg h3] at hl; omega
  have k2 : ∀ l < 9, ∀ j < 2, |latticeZ 2 l j| ≤ 1 := by decide +kernel
  have k3 : ∀ l < 27, ∀ j < 3, |latticeZ 3 l j| ≤ 1 := by decide +kernel
  rcases hd with rfl | rfl
  · exact k2 l hl j hj
  · exact k3 l hl j hj

theorem lat_zero : ∀ d, d = 2 ∨ d = 3 → ∀ l < nLattice d, (∀ j < d, latticeZ d l j = 0) ↔ l = nLattice d / 2 := by
  have k2 : ∀ l < 9, (∀ j < 2, latticeZ 2 l j = 0) ↔ l = 4 := by decide +kernel
  have k3 : ∀ l < 27, (∀ j < 3, latticeZ 3 l j = 0) ↔ l = 13 := by decide +kernel
  rintro d (rfl | rfl)
  · exact k2
  · exact k3

section
variable {K : Type} [Field K] [LinearOrder K] [IsStrictOrderedRing K]

theorem lattice_le {d l j : Nat} (hl : l < nLattice d) (hj : j < d) : |lattice K d l j| ≤ 1 := by
  unfold lattice
  rw [← Int.cast_abs]
  exact_mod_cast lat_le d l j hl hj

/-- The lattice vector that does not move the points, for a cell wider than `1e-10`. -/
theorem noShift_iff {A : Arr K} {d : Nat} (hd : d = 2 ∨ d = 3) (hext : ∀ j < d, 1 / 10^10 < (A.enbox (A.nNode - 1)).ext j) {l : Nat} (hl : l < nLattice d) :
    NoShift d A (lattice K d) l ↔ l = nLattice d / 2 := by
  rw [← lat_zero d hd l hl]
  constructor
  · intro h j hj
    by_contra hc
    have h1 := h j hj
    have h2 := hext j hj
    have h3 : (1 : K) ≤ |lattice K d l j| := by
      unfold lattice
      rw [← Int.cast_abs]
      exact_mod_cast Int.one_le_abs hc
    have h4 : (0 : K) < 1 / 10^10 := by positivity
    rw [abs_mul, abs_of_pos (lt_trans h4 h2)] at h1
    nlinarith
  · intro h j hj
    unfold lattice
    rw [h j hj, Int.cast_zero, mul_zero, abs_zero]
    positivity

/-! ## C54 -/

/-- **C54** (root).  No admissible pair starts at the root, so that the product with the root block, which overwrites the result of the pairs at
the root, loses nothing. -/
theorem C54_root_not_admissible {A : Arr K} {n : Nat} (ptDim : Nat) (T : ClusterTree A n) (hpos : ∀ j < ptDim, 0 < (A.enbox (A.nNode - 1)).ext j) (fuel : Nat)
    (pv : PerPairs) (h : perPairs ptDim A (nLattice ptDim) (lattice K ptDim) fuel = .ok pv) : ∀ x ∈ pv.adm, x.1 ≠ A.nNode - 1 := by
  intro x hx
  have := H2Pack.Part.perPairs_noRoot ptDim T (nLattice ptDim) (lattice K ptDim) fuel hpos (fun l hl j hj => lattice_le hl hj) pv h x hx
  exact Nat.ne_of_lt this.1

/-- **C54** (end to end).  The periodic pair search, the construction of skeleton points and bases for all nodes by any number of threads in any
schedule, and the metadata functions, put together: the metadata functions return, and the result is valid for the periodic products. -/
theorem C54_periodic_build (S : Input K) (T : ClusterTree S.arr S.nPoint) (hkd : 0 < S.kdim) (hO : ∀ a b, S.ops.div a b ≠ .diverge)
    (hdim : S.ptDim ≤ S.xdim) (hx8 : S.xdim ≤ 8) (hpos : ∀ j < S.ptDim, 0 < (S.arr.enbox (S.arr.nNode - 1)).ext j)
    (pkern : (Nat → K) → (Nat → K) → Nat → Nat → K)
    (fuel0 : Nat) (hf0 : 2 * S.arr.nNode ≤ fuel0) (pv : PerPairs) (hpv : perPairs S.ptDim S.arr (nLattice S.ptDim) (lattice K S.ptDim) fuel0 = .ok pv) (hne : pv.adm ≠ [])
    {fuel NT : Nat} {c : H2Pack.DAG.Config (Res (Slot K)) NT}
    (hx : H2Pack.DAG.Execution (H2Pack.DAG.upwardDAGPeriodic S.arr.nNode S.arr.level S.arr.parent 0) (ujTask S fuel) c) (hP : 0 < NT) (hd : ∀ a, c.th a = .done)
    (hok : ∀ v < S.arr.nNode, ∃ s, c.res v = .ok s ∧ 0 < s.jl) (junk : Nat → Slot K)
    (coordIdx : Nat → Nat) (perm : ((List.range S.nPoint).map coordIdx).Perm (List.range S.nPoint)) (mark : Nat → Nat) (simd : Nat) (hsimd : 0 < simd)
    (mv : Option (KMv K)) (hmv : ∀ f, mv = some f → MvSpec simd S.xdim S.kdim S.kern f)
    (B D : Nat → Mat K) (junkM junkW : Nat → Nat → K) (pad : K) (junkC : Nat → Nat → K) (junkB junkR : Nat → K) (junkE : Nat → Nat → K)
    (EB ED : MetaEnv) (hEB : EB.Valid S.arr.nNode) (hED : ED.Valid S.arr.nNode) :
    ∃ MB MD, Returns (generateB (assemble S (finishUJ 0 S.arr.level c.res junk) (pairsOf pv) coordIdx mark simd none B D junkM junkW) true EB) MB ∧
      Returns (generateD (assemble S (finishUJ 0 S.arr.level c.res junk) (pairsOf pv) coordIdx mark simd none B D junkM junkW) true ED) MD ∧
      ∃ P, P = assemblePer S (finishUJ 0 S.arr.level c.res junk) pv (lattice K S.ptDim) coordIdx MB.nAdm simd B D junkM junkW mv pad junkC
          (perBlkOf S (assemble S (finishUJ 0 S.arr.level c.res junk) (pairsOf pv) coordIdx MB.nAdm simd none B D junkM junkW) pkern
            (nLattice S.ptDim) (lattice K S.ptDim) junkB junkR junkE) ∧
        BuiltPer S pkern (nLattice S.ptDim) (lattice K S.ptDim) pv (finishUJ 0 S.arr.level c.res junk) P ∧
        Returns (generateB P.J true EB) MB ∧ Returns (generateD P.J true ED) MD ∧ P.PerMeta MB MD := by
  have hres : ∀ v < S.arr.nNode, c.res v = .ok (finishUJ 0 S.arr.level c.res junk v) ∧ 0 < (finishUJ 0 S.arr.level c.res junk v).jl := by
    intro v hv
    obtain ⟨s, hs, hj⟩ := hok v hv
    rw [H2Pack.UJ.finish_at (Nat.zero_le _) hs]
    exact ⟨hs, hj⟩
  have hdone := H2Pack.UJ.execution_done_per T hx hP hd
  rw [H2Pack.UJ.ujNode_eq] at hdone
  have hsk : ∀ v < S.arr.nNode, (pairsOf pv).minAdm ≤ S.arr.level v → Skeleton S (finishUJ 0 S.arr.level c.res junk) v := fun v hv hl =>
    (H2Pack.UJ.done_skeleton T hkd hO hdone (fun v hv _ => (hres v hv).1) v hv (Nat.zero_le _)).1
  generalize hsl : finishUJ 0 S.arr.level c.res junk = sl at *
  have hd4 : S.ptDim ≤ 4 := by
    by_contra hc
    unfold perPairs at hpv
    rw [if_neg hc] at hpv
    cases hpv
  obtain ⟨pv', c1, _, c3, _⟩ := H2Pack.Part.C14_periodic_cover S.ptDim hd4 T (nLattice S.ptDim) (lattice K S.ptDim) fuel0 hf0
  rw [hpv] at c1
  have := Res.ok.inj c1
  subst this
  have hOk : ∀ (m : Nat → Nat) (bl : Nat → K), (assemblePer S sl pv (lattice K S.ptDim) coordIdx m simd B D junkM junkW mv pad junkC bl).Ok := by
    intro m bl
    refine ⟨T, hkd, perm, hsimd, hx8, hdim, rfl, fun v hv => (hres v hv).2, fun v hv => (hsk v hv (Nat.zero_le _)).cols, ?_, ?_, ?_, ?_, ?_, hmv⟩
    · intro v hv h0
      exact (H2Pack.UJ.sizes (pv := pairsOf pv) (coordIdx := coordIdx) (mark := m) (simd := simd) (bimv := none) (B := B) (D := D) (junkM := junkM) (junkW := junkW) T hsk hv (Nat.zero_le _)).1 h0
    · intro v hv h0
      exact (H2Pack.UJ.sizes (pv := pairsOf pv) (coordIdx := coordIdx) (mark := m) (simd := simd) (bimv := none) (B := B) (D := D) (junkM := junkM) (junkW := junkW) T hsk hv (Nat.zero_le _)).2 h0
    · intro x hx
      have hx' : x ∈ pv.adm.map (fun x => (x.1, x.2.1)) := hx
      obtain ⟨y, hy, rfl⟩ := List.mem_map.1 hx'
      have := c3 y (List.mem_append_left _ hy)
      exact ⟨this.1, this.2.1⟩
    · intro x hx
      have hx' : x ∈ pv.inadm.map (fun x => (x.1, x.2.1)) := hx
      obtain ⟨y, hy, rfl⟩ := List.mem_map.1 hx'
      have := c3 y (List.mem_append_right _ hy)
      exact ⟨this.1, this.2.1⟩
    · intro x hx
      have hx' : x ∈ pv.adm.map (fun x => (x.1, x.2.1)) := hx
      obtain ⟨y, hy, rfl⟩ := List.mem_map.1 hx'
      exact C54_root_not_admissible S.ptDim T hpos fuel0 pv hpv y hy
  have hne' : (pairsOf pv).adm ≠ [] := by
    show pv.adm.map _ ≠ []
    simpa using hne
  obtain ⟨MB, MD, m1, m2, m3, _⟩ := H2Pack.MV.Per.perMeta (hOk mark (fun _ => 0)) hEB hED hne'
  obtain ⟨MB', MD', n1, n2, n3, n4⟩ := H2Pack.MV.Per.perMeta (hOk MB.nAdm (perBlkOf S (assemble S sl (pairsOf pv) coordIdx MB.nAdm simd none B D junkM junkW) pkern
            (nLattice S.ptDim) (lattice K S.ptDim) junkB junkR junkE)) hEB hED hne'
  have eB : MB = MB' := by
    obtain ⟨F, hF⟩ := m1
    obtain ⟨F', hF'⟩ := n1
    have h1 := hF (max F F') (le_max_left _ _)
    have h2 := hF' (max F F') (le_max_right _ _)
    have h3 : (Res.ok MB) = Res.ok MB' := h1.symm.trans h2
    exact Res.ok.inj h3
  have eD : MD = MD' := by
    obtain ⟨F, hF⟩ := m2
    obtain ⟨F', hF'⟩ := n2
    have h1 := hF (max F F') (le_max_left _ _)
    have h2 := hF' (max F F') (le_max_right _ _)
    have h3 : (Res.ok MD) = Res.ok MD' := h1.symm.trans h2
    exact Res.ok.inj h3
  subst eB eD
  exact ⟨MB, MD, m1, m2, _, rfl, ⟨⟨coordIdx, MB.nAdm, simd, B, D, junkM, junkW, mv, pad, junkC, junkB, junkR, junkE, rfl⟩,
    fun v hv => hsk v hv (Nat.zero_le _), ⟨fuel0, hf0, hpv⟩, hOk _ _⟩, n1, n2, n4 rfl⟩

/-! ## C55 -/

/-- Sum over a list of triples of a function of the third component = sum over the third components of the counts. -/
theorem sum_triples (H : Nat × Nat × Nat → Prop) [DecidablePred H] (f : Nat → K) (m : Nat) : ∀ (L : List (Nat × Nat × Nat)), (∀ x ∈ L, x.2.2 < m) →
    (L.map (fun x => if H x then f x.2.2 else 0)).sum = ∑ l ∈ range m, (((L.filter (fun x => x.2.2 = l)).countP (fun x => H x) : Nat) : K) * f l := by
  intro L
  induction L with
  | nil => intro _; simp
  | cons x L ih =>
    intro h
    rw [List.map_cons, List.sum_cons, ih (fun y hy => h y (List.mem_cons_of_mem _ hy))]
    have hx := h x (List.mem_cons_self ..)
    have e : (if H x then f x.2.2 else 0) = ∑ l ∈ range m, (if x.2.2 = l then (if H x then f l else 0) else 0) := by
      rw [Finset.sum_ite_eq, if_pos (mem_range.2 hx)]
    rw [e, ← sum_add_distrib]
    apply sum_congr rfl
    intro l _
    rw [List.filter_cons]
    by_cases hl : x.2.2 = l
    · simp only [hl, decide_true, if_true, List.countP_cons]
      by_cases hh : H x
      · simp only [hh, if_true, decide_true]; push_cast; ring
      · simp [hh]
    · simp [hl]

theorem sum_list_range (f : Nat × Nat × Nat → K) (L : List (Nat × Nat × Nat)) : (L.map f).sum = ∑ i ∈ range L.length, f (L.getD i (0, 0, 0)) := by
  induction L with
  | nil => simp
  | cons x L ih =>
    rw [List.length_cons, Finset.sum_range_succ']
    simp only [List.getD_cons_succ, List.getD_cons_zero]
    rw [List.map_cons, List.sum_cons, ih, add_comm]

/-- Error of interpolating `G`, in the terms used for the products. -/
theorem localErr_interp {S : Input K} {pv : H2Pack.Part.Pairs} {sl : Nat → Slot K} {coordIdx mark : Nat → Nat} {simd : Nat} {bimv : Option (H2Pack.MV.Bimv K)}
    {B D : Nat → Mat K} {junkM junkW : Nat → Nat → K} {u : Nat} (hu : Skeleton S sl u) (G : (Nat → K) → Nat → K) (i a : Nat) :
    H2Pack.MV.localErr (assemble S sl pv coordIdx mark simd bimv B D junkM junkW) (fun v i => (cands S sl v).getD i 0) (fun v => (sl v).jd)
      (fun x a => G (pt S x) a) u i a = interpOf S sl G u i a := by
  unfold H2Pack.MV.localErr interpOf
  have e : ((assemble S sl pv coordIdx mark simd bimv B D junkM junkW).R.U u).ncol = (sl u).jl * S.kdim := hu.cols
  rw [e, H2Pack.MV.sum_rows]
  congr 1
  apply sum_congr rfl; intro k hk
  apply sum_congr rfl; intro b hb
  have hb := mem_range.1 hb
  unfold H2Pack.MV.skVal
  show (sl u).U.entry _ _ * G (pt S ((sl u).jd ((k * S.kdim + b) / S.kdim))) ((k * S.kdim + b) % S.kdim) = _
  rw [(H2Pack.MV.div_mod_row hb).1, (H2Pack.MV.div_mod_row hb).2]
  rfl

/-- The conditions of the products depend on the sizes of the blocks only. -/
theorem wf_sizes {R R' : H2Pack.MV.Rep K} (h : WF R) (B' D' : Nat → Mat K) (e : R' = { R with B := B', D := D' })
    (hB : ∀ i < R.adm.length, (B' i).nrow = (R.B i).nrow ∧ (B' i).ncol = (R.B i).ncol)
    (hD : ∀ i < R.arr.nLeaf + R.inadm.length, (D' i).nrow = (R.D i).nrow ∧ (D' i).ncol = (R.D i).ncol) : WF R' := by
  subst e
  refine ⟨h.tree, h.kdim, h.perm, h.rank, h.uLeaf, h.uInner, h.admNode, h.admLevel, h.marked, ?_, ?_, h.inadmNode, ?_, ?_⟩
  · intro i hi; exact (hB i hi).1.trans (h.bRow i hi)
  · intro i hi; exact (hB i hi).2.trans (h.bCol i hi)
  · intro i hi
    have hi' : i < R.arr.nLeaf := hi
    exact ⟨(hD i (by omega)).1.trans (h.d0 i hi).1, (hD i (by omega)).2.trans (h.d0 i hi).2⟩
  · intro i hi
    have hi' : i < R.inadm.length := hi
    have := hD (R.arr.nLeaf + i) (by omega)
    exact ⟨this.1.trans (h.d1 i hi).1, this.2.trans (h.d1 i hi).2⟩

theorem desc_lt {A : Arr K} {n : Nat} (T : ClusterTree A n) {u v : Nat} (hv : v < A.nNode) (h : Desc A u v) : u < A.nNode := by
  induction h with
  | refl => exact hv
  | @step c v hc _ ih => exact ih (T.kid_lt hv hc)

/-- **C55** (entries).  In the order of the tree, the represented matrix differs from the periodic kernel matrix by at most
`(1 + Λ) (1 + max_level Λ) (n_lattice ε + εr)`, for bases whose rows have absolute sums at most `Λ` and interpolation errors at most `ε` for the images
and `εr` for the rest. -/
theorem C55_entry_error {S : Input K} {pkern : (Nat → K) → (Nat → K) → Nat → Nat → K} {pv : PerPairs} {sl : Nat → Slot K} {P : Per K}
    (hB : BuiltPer S pkern (nLattice S.ptDim) (lattice K S.ptDim) pv sl P) (hdim : S.ptDim = 2 ∨ S.ptDim = 3)
    (hext : ∀ j < S.ptDim, 1 / 10^10 < (S.arr.enbox (S.arr.nNode - 1)).ext j) (h0 : S.ops.zero = 0) (h1 : S.ops.one = 1)
    {W : Nat → Nat → Nat → K} (hW : Nested P.J.R W) {ε εr Λ : K} (hε : 0 ≤ ε) (hεr : 0 ≤ εr)
    (hacc : PerAccurate S pkern (nLattice S.ptDim) (lattice K S.ptDim) pv sl ε εr)
    (hΛ : ∀ v < S.arr.nNode, ∀ r, ∑ t ∈ range (sl v).U.ncol, |W v r t| ≤ Λ) (hΛ1 : 1 ≤ Λ)
    {p q a b : Nat} (hp : p < S.nPoint) (hq : q < S.nPoint) (ha : a < S.kdim) (hb : b < S.kdim) :
    |pkern (pt S p) (pt S q) a b - P.entry W (p * S.kdim + a) (q * S.kdim + b)| ≤
      (1 + Λ) * ((1 + S.arr.maxLevel * Λ) * (nLattice S.ptDim * ε + εr)) := by
  obtain ⟨⟨coordIdx, mark, simd, B, D, junkM, junkW, mv, pad, junkC, junkB, junkR, junkE, hform⟩, hsk, ⟨fuel, hfuel, hpv⟩, hOk⟩ := hB
  have hJ : P.J = assemble S sl (pairsOf pv) coordIdx mark simd none B D junkM junkW := by rw [hform]; rfl
  have T : ClusterTree S.arr S.nPoint := by have := hOk.tree; rw [hJ] at this; exact this
  have hroot : S.arr.nNode - 1 < S.arr.nNode := by have := T.nonempty; omega
  -- the same representation with all nodes marked
  let J1 : JIT K := assemble S sl (pairsOf pv) coordIdx (fun _ => 1) simd none B D junkM junkW
  have hS1 : HasSkel J1 (fun v i => (cands S sl v).getD i 0) (fun v => (cands S sl v).length) (fun v => (sl v).jd) :=
    H2Pack.UJ.hasSkel T h0 h1 (fun v hv _ => hsk v hv)
  have hS : HasSkel P.J (fun v i => (cands S sl v).getD i 0) (fun v => (cands S sl v).length) (fun v => (sl v).jd) := by
    rw [hJ]; exact H2Pack.UJ.hasSkel T h0 h1 (fun v hv _ => hsk v hv)
  have hw1 := H2Pack.MV.Per.one_wf hOk (fun _ => 1) (fun _ => Nat.one_ne_zero)
  have hwf1 : WF J1.aot := by
    refine wf_sizes hw1 J1.aot.B J1.aot.D (by rw [hform]; rfl) (by intro i _; rw [hform]; exact ⟨rfl, rfl⟩) ?_
    intro i _
    rw [hform]
    by_cases hi : i < S.arr.nLeaf
    · have e1 : J1.aot.D i = J1.block (J1.cPts (J1.R.leaf i)) (J1.cPts (J1.R.leaf i)) := if_pos hi
      rw [e1]
      constructor
      · show _ = (if i < S.arr.nLeaf then _ else _ : Mat K).nrow
        rw [if_pos hi]; rfl
      · show _ = (if i < S.arr.nLeaf then _ else _ : Mat K).ncol
        rw [if_pos hi]; rfl
    · have e1 : J1.aot.D i = J1.block (J1.cPts (J1.R.inadm.getD (i - S.arr.nLeaf) (0, 0)).1) (J1.cPts (J1.R.inadm.getD (i - S.arr.nLeaf) (0, 0)).2) := if_neg hi
      rw [e1]
      constructor
      · show _ = (if i < S.arr.nLeaf then _ else _ : Mat K).nrow
        rw [if_neg hi]; rfl
      · show _ = (if i < S.arr.nLeaf then _ else _ : Mat K).ncol
        rw [if_neg hi]; rfl
  have hW1 : Nested J1.aot W := by
    rw [hform] at hW
    exact ⟨hW.leaf, hW.inner⟩
  have hWw : Nested ({ P.aot with mark := fun _ => 1 } : H2Pack.MV.Rep K) W := ⟨hW.leaf, hW.inner⟩
  -- coverage
  have hd4 : S.ptDim ≤ 4 := by omega
  obtain ⟨pv', c1, c2, c3, _⟩ := H2Pack.Part.C14_periodic_cover S.ptDim hd4 T (nLattice S.ptDim) (lattice K S.ptDim) fuel hfuel
  rw [hpv] at c1
  have hpp := Res.ok.inj c1
  subst hpp
  have hns := fun l hl => noShift_iff (K := K) (A := S.arr) hdim hext (l := l) hl
  have hz : ∀ d, cellShift S (lattice K S.ptDim) (nLattice S.ptDim / 2) d = 0 := by
    intro d
    unfold cellShift
    by_cases hd : d < S.ptDim
    · rw [if_pos hd]
      unfold latShift lattice
      have hlt : nLattice S.ptDim / 2 < nLattice S.ptDim := by
        rcases hdim with h | h <;> rw [h] <;> decide
      rw [(lat_zero S.ptDim hdim _ hlt).2 rfl d hd, Int.cast_zero, mul_zero]
    · rw [if_neg hd]
  set l0 := nLattice S.ptDim / 2 with hl0
  have hl0lt : l0 < nLattice S.ptDim := by
    rw [hl0]
    rcases hdim with h | h <;> rw [h] <;> decide
  set H : Nat × Nat × Nat → Prop := fun x => Holds S.arr p q (x.1, x.2.1) with hH
  letI hHd : DecidablePred H := fun x => inferInstanceAs (Decidable (Holds S.arr p q (x.1, x.2.1)))
  set f : Nat → K := fun l => S.kern (pt S p) (fun d => pt S q d + cellShift S (lattice K S.ptDim) l d) a b with hf
  set leafL : List (Nat × Nat × Nat) := (leaves S.arr).map (fun v => (v, v, l0)) with hleafL
  have hcnt : ∀ l < nLattice S.ptDim, (((pv.adm ++ pv.inadm ++ leafL).filter (fun x => x.2.2 = l)).countP (fun x => H x)) = 1 := by
    intro l hl
    have e : leafL.filter (fun x => x.2.2 = l) = (if NoShift S.ptDim S.arr (lattice K S.ptDim) l then (leaves S.arr).map (fun v => (v, v, l)) else []).filter (fun x => x.2.2 = l) := by
      by_cases hll : l = l0
      · rw [if_pos ((hns l hl).2 hll), hleafL, hll]
      · rw [if_neg (fun h => hll ((hns l hl).1 h)), hleafL, List.filter_nil, List.filter_eq_nil_iff]
        intro x hx
        obtain ⟨v, _, rfl⟩ := List.mem_map.1 hx
        simp [Ne.symm hll]
    have e2 := c2 l hl p hp q hq
    rw [List.filter_append, ← e, ← List.filter_append] at e2
    exact e2
  have hmem : ∀ x ∈ pv.adm ++ pv.inadm ++ leafL, x.2.2 < nLattice S.ptDim := by
    intro x hx
    rcases List.mem_append.1 hx with h | h
    · exact (c3 x h).2.2
    · obtain ⟨v, _, rfl⟩ := List.mem_map.1 h
      exact hl0lt
  have htot : ((pv.adm.map (fun x => if H x then f x.2.2 else 0)).sum + (pv.inadm.map (fun x => if H x then f x.2.2 else 0)).sum) + (leafL.map (fun x => if H x then f x.2.2 else 0)).sum =
      ∑ l ∈ range (nLattice S.ptDim), f l := by
    rw [← List.sum_append, ← List.map_append, ← List.sum_append, ← List.map_append, sum_triples H f (nLattice S.ptDim) _ hmem]
    apply sum_congr rfl
    intro l hl
    rw [hcnt l (mem_range.1 hl), Nat.cast_one, one_mul]
  -- dense blocks
  have hk : P.J.R.kdim = S.kdim := by rw [hJ]; rfl
  have harr : P.J.R.arr = S.arr := by rw [hJ]; rfl
  have hkern : P.J.kern = S.kern := by rw [hJ]; rfl
  have hpt : ∀ x, P.J.pt x = pt S x := by intro x; rw [hJ]; rfl
  have hdense : ∀ v w s, H2Pack.MV.blockEntry P.aot v w (P.block (P.J.cPts v) (P.J.cPts w) s) (p * S.kdim + a) (q * S.kdim + b) =
      if Holds S.arr p q (v, w) then S.kern (pt S p) (fun d => pt S q d + s d) a b else 0 := by
    intro v w s
    have := H2Pack.MV.Per.dense_per (P := P) (v := v) (w := w) (p := p) (q := q) (a := a) (b := b) s (by rw [hk]; exact ha) (by rw [hk]; exact hb)
    rw [hk, harr, hkern, hpt, hpt] at this
    exact this
  have hleaf : (∑ i ∈ range P.J.R.arr.nLeaf, H2Pack.MV.blockEntry P.aot (P.J.R.leaf i) (P.J.R.leaf i) (P.aot.D i) (p * S.kdim + a) (q * S.kdim + b)) =
      (leafL.map (fun x => if H x then f x.2.2 else 0)).sum := by
    rw [hleafL, ← H2Pack.MV.leaf_list T, sum_list_range, harr]
    simp only [List.length_map, List.length_range]
    apply sum_congr rfl
    intro i hi
    have hi := mem_range.1 hi
    have e1 : P.aot.D i = P.block (P.J.cPts (P.J.R.leaf i)) (P.J.cPts (P.J.R.leaf i)) (fun _ => 0) := if_pos (by rw [harr]; exact hi)
    rw [e1, hdense]
    have e2 : (((List.range S.arr.nLeaf).map S.arr.heightNodes).map (fun v => (v, v, l0))).getD i (0, 0, 0) = (P.J.R.leaf i, P.J.R.leaf i, l0) := by
      simp [List.getD, hi, hJ]
      rfl
    rw [e2]
    have e3 : f l0 = S.kern (pt S p) (fun d => pt S q d + 0) a b := by
      rw [hf]
      simp only [hz]
    by_cases hh : Holds S.arr p q (P.J.R.leaf i, P.J.R.leaf i)
    · rw [if_pos hh, if_pos (show H (P.J.R.leaf i, P.J.R.leaf i, l0) from hh), e3]
    · rw [if_neg hh, if_neg (show ¬ H (P.J.R.leaf i, P.J.R.leaf i, l0) from hh)]
  have hshift : ∀ (L : List (Nat × Nat × Nat)) (i : Nat), P.shiftOf (shifts S.arr S.ptDim (lattice K S.ptDim) L) i =
      cellShift S (lattice K S.ptDim) (L.getD i (0, 0, 0)).2.2 := by
    intro L i
    have hpd : P.pdim = S.ptDim := by rw [hform]; rfl
    funext d
    unfold H2Pack.MV.Per.shiftOf cellShift
    rw [hpd]
    by_cases hd : d < S.ptDim
    · rw [if_pos hd, if_pos hd]
      unfold shifts
      rw [(H2Pack.MV.div_mod_row hd).1, (H2Pack.MV.div_mod_row hd).2]
    · rw [if_neg hd, if_neg hd]
  have hin : (∑ i ∈ range P.J.R.inadm.length, H2Pack.MV.inadmEntry P.aot i (p * S.kdim + a) (q * S.kdim + b)) =
      (pv.inadm.map (fun x => if H x then f x.2.2 else 0)).sum := by
    have hL : P.J.R.inadm = pv.inadm.map (fun x => (x.1, x.2.1)) := by rw [hJ]; rfl
    rw [sum_list_range, hL, List.length_map]
    apply sum_congr rfl
    intro i hi
    have hi := mem_range.1 hi
    have hg : P.J.R.inadm.getD i (0, 0) = ((pv.inadm.getD i (0, 0, 0)).1, (pv.inadm.getD i (0, 0, 0)).2.1) := by
      rw [hL]; simp [List.getD, hi]
    unfold H2Pack.MV.inadmEntry
    have e1 : P.aot.D (P.J.R.arr.nLeaf + i) = P.block (P.J.cPts (P.J.R.inadm.getD i (0, 0)).1)
      (P.J.cPts (P.J.R.inadm.getD i (0, 0)).2) (P.shiftOf P.inadmShift i) := by
      show (if P.J.R.arr.nLeaf + i < P.J.R.arr.nLeaf then _ else _) = _
      rw [if_neg (by omega), Nat.add_sub_cancel_left]
    have e2 : P.shiftOf P.inadmShift i = cellShift S (lattice K S.ptDim) (pv.inadm.getD i (0, 0, 0)).2.2 := by
      rw [← hshift pv.inadm i, show P.inadmShift = shifts S.arr S.ptDim (lattice K S.ptDim) pv.inadm by rw [hform]; rfl]
    show H2Pack.MV.blockEntry P.aot (P.J.R.inadm.getD i (0, 0)).1 (P.J.R.inadm.getD i (0, 0)).2 (P.aot.D (P.J.R.arr.nLeaf + i)) _ _ = _
    rw [e1, e2, hg, hdense]
  -- admissible blocks
  set E : K := (1 + Λ) * ((1 + S.arr.maxLevel * Λ) * ε) with hE
  have hΛ0 : 0 ≤ Λ := by linarith
  have hE0 : 0 ≤ E := by rw [hE]; positivity
  have hadm : |(pv.adm.map (fun x => if H x then f x.2.2 else 0)).sum - ∑ i ∈ range P.J.R.adm.length, H2Pack.MV.admEntry P.aot W i (p * S.kdim + a) (q * S.kdim + b)| ≤
      nLattice S.ptDim * E := by
    have hL : P.J.R.adm = pv.adm.map (fun x => (x.1, x.2.1)) := by rw [hJ]; rfl
    have hlen : P.J.R.adm.length = pv.adm.length := by rw [hL, List.length_map]
    have hone : ∀ i < pv.adm.length, |(if H (pv.adm.getD i (0, 0, 0)) then f (pv.adm.getD i (0, 0, 0)).2.2 else 0) - H2Pack.MV.admEntry P.aot W i (p * S.kdim + a) (q * S.kdim + b)| ≤
        if H (pv.adm.getD i (0, 0, 0)) then E else 0 := by
      intro i hi
      have hi' : i < P.J.R.adm.length := by rw [hlen]; exact hi
      have hx : pv.adm.getD i (0, 0, 0) = pv.adm[i] := by simp [List.getD, hi]
      have hxm : pv.adm[i] ∈ pv.adm := List.getElem_mem hi
      have hg : P.J.R.adm[i] = (pv.adm[i].1, pv.adm[i].2.1) := by simp only [hL, List.getElem_map]
      have hnn := c3 _ (List.mem_append_left _ hxm)
      rw [hx]
      by_cases hh : H pv.adm[i]
      · rw [if_pos hh, if_pos hh]
        have e1 := H2Pack.MV.Per.admEntry_per hOk hS W hi' (p * S.kdim + a) (q * S.kdim + b)
        have e2 : P.shiftOf P.admShift i = cellShift S (lattice K S.ptDim) pv.adm[i].2.2 := by
          rw [← hx, ← hshift pv.adm i, show P.admShift = shifts S.arr S.ptDim (lattice K S.ptDim) pv.adm by rw [hform]; rfl]
        have hhp : Holds S.arr p q (pv.adm[i].1, pv.adm[i].2.1) := hh
        have e3 := H2Pack.MV.bi_err (J := J1) hwf1 hS1 hW1 hε (fun v hv _ => hΛ v hv) hΛ1 (v := pv.adm[i].1) (w := pv.adm[i].2.1) hnn.1 hnn.2.1 (Nat.zero_le _)
          (fun x a y b => S.kern (pt S x) (fun d => pt S y d + cellShift S (lattice K S.ptDim) pv.adm[i].2.2 d) a b) (p := p) (q := q) (a := a) (b := b) hhp.1 hhp.2 ha hb
          (fun hlv u hu i' hi' a' ha' => by
            rw [localErr_interp (hsk u (desc_lt T hnn.1 hu)) (fun s a => S.kern s (fun d => pt S q d + cellShift S (lattice K S.ptDim) pv.adm[i].2.2 d) a b)]
            exact hacc.row _ hxm hlv u hu q hhp.2.1 hhp.2.2 b hb i' hi' a' ha')
          (fun hlv y y1 y2 a' ha' u hu i' hi' b' hb' => by
            rw [localErr_interp (hsk u (desc_lt T hnn.2.1 hu)) (fun s b => S.kern (pt S y) (fun d => s d + cellShift S (lattice K S.ptDim) pv.adm[i].2.2 d) a' b)]
            exact hacc.col _ hxm hlv u hu y y1 y2 a' ha' i' hi' b' hb')
        rw [e1, e2, hg, hk, hkern]
        simp only [hpt]
        have hJs : ∀ v w, H2Pack.MV.sideN P.J v w = H2Pack.MV.sideN J1 v w := by intro v w; rw [hJ]; rfl
        have hJp : ∀ v w c, H2Pack.MV.sideP P.J (fun v => (sl v).jd) v w c = H2Pack.MV.sideP J1 (fun v => (sl v).jd) v w c := by intro v w c; rw [hJ]; rfl
        have hJside : ∀ v w r c, H2Pack.MV.side P.J.aot W v w r c = H2Pack.MV.side J1.aot W v w r c := by intro v w r c; rw [hJ]; rfl
        simp only [hJs, hJp, hJside]
        exact e3
      · rw [if_neg hh, if_neg hh]
        have e1 := H2Pack.MV.admEntry_zero hw1 hWw (k := i) (p := p) (q := q) (a := a) (b := b) hi' (by show a < P.J.R.kdim; rw [hk]; exact ha) (by show b < P.J.R.kdim; rw [hk]; exact hb)
          (by
            show ¬ Holds P.J.R.arr p q P.J.R.adm[i]
            rw [hg, harr]; exact hh)
        have e2 : H2Pack.MV.admEntry P.aot W i (p * P.J.R.kdim + a) (q * P.J.R.kdim + b) = 0 := e1
        rw [hk] at e2
        rw [e2, sub_zero, abs_zero]
    rw [sum_list_range, hlen, ← sum_sub_distrib]
    refine le_trans (abs_sum_le_sum_abs _ _) (le_trans (sum_le_sum fun i hi => hone i (mem_range.1 hi)) ?_)
    have e4 := sum_list_range (fun x => if H x then E else 0) pv.adm
    rw [← e4, sum_triples H (fun _ => E) (nLattice S.ptDim) pv.adm (fun x hx => hmem x (List.mem_append_left _ (List.mem_append_left _ hx)))]
    have : ∀ l ∈ range (nLattice S.ptDim), (((pv.adm.filter (fun x => x.2.2 = l)).countP (fun x => H x) : Nat) : K) * E ≤ E := by
      intro l hl
      have hc := hcnt l (mem_range.1 hl)
      rw [List.append_assoc, List.filter_append, List.countP_append] at hc
      have : ((pv.adm.filter (fun x => x.2.2 = l)).countP (fun x => H x) : Nat) ≤ 1 := by omega
      have h' : (((pv.adm.filter (fun x => x.2.2 = l)).countP (fun x => H x) : Nat) : K) ≤ 1 := by exact_mod_cast this
      nlinarith
    refine le_trans (sum_le_sum this) ?_
    rw [sum_const, card_range, nsmul_eq_mul]
  -- the root block
  have hrt : |diffKern S pkern (nLattice S.ptDim) (lattice K S.ptDim) (pt S p) (pt S q) a b - ∑ c ∈ range P.blkSize, ∑ d ∈ range P.blkSize,
      W P.root (p * S.kdim + a) c * P.perBlk (c * P.blkSize + d) * W P.root (q * S.kdim + b) d| ≤ (1 + Λ) * ((1 + S.arr.maxLevel * Λ) * εr) := by
    have hbs : P.blkSize = (sl (S.arr.nNode - 1)).jl * S.kdim := by
      unfold H2Pack.MV.Per.blkSize H2Pack.MV.Per.root; rw [hJ]; rfl
    have hr : P.root = S.arr.nNode - 1 := by unfold H2Pack.MV.Per.root; rw [harr]
    have hin : ∀ x < S.nPoint, S.arr.ptS (S.arr.nNode - 1) ≤ x ∧ x ≤ S.arr.ptE (S.arr.nNode - 1) := by
      intro x hx
      have := T.rootS
      have := T.rootE
      omega
    have e3 := H2Pack.MV.bi_err (J := J1) hwf1 hS1 hW1 hεr (fun v hv _ => hΛ v hv) hΛ1 (v := S.arr.nNode - 1) (w := S.arr.nNode - 1) hroot hroot (Nat.zero_le _)
          (fun x a y b => diffKern S pkern (nLattice S.ptDim) (lattice K S.ptDim) (pt S x) (pt S y) a b) (p := p) (q := q) (a := a) (b := b) (hin p hp) (hin q hq) ha hb
          (fun _ u hu i' hi' a' ha' => by
            rw [localErr_interp (hsk u (desc_lt T hroot hu)) (fun s a => diffKern S pkern (nLattice S.ptDim) (lattice K S.ptDim) s (pt S q) a b)]
            exact hacc.rootRow u (desc_lt T hroot hu) q hq b hb i' hi' a' ha')
          (fun _ y y1 y2 a' ha' u hu i' hi' b' hb' => by
            rw [localErr_interp (hsk u (desc_lt T hroot hu)) (fun s b => diffKern S pkern (nLattice S.ptDim) (lattice K S.ptDim) (pt S y) s a' b)]
            exact hacc.rootCol u (desc_lt T hroot hu) y (by have := T.rootE; have y2' : y ≤ S.arr.ptE (S.arr.nNode - 1) := y2; omega) a' ha' i' hi' b' hb')
    have hN : H2Pack.MV.sideN J1 (S.arr.nNode - 1) (S.arr.nNode - 1) = (sl (S.arr.nNode - 1)).jl := if_pos (le_refl _)
    have hPp : ∀ c, H2Pack.MV.sideP J1 (fun v => (sl v).jd) (S.arr.nNode - 1) (S.arr.nNode - 1) c = (sl (S.arr.nNode - 1)).jd c := fun c => if_pos (le_refl _)
    have hsd : ∀ r c, H2Pack.MV.side J1.aot W (S.arr.nNode - 1) (S.arr.nNode - 1) r c = W (S.arr.nNode - 1) r c := fun r c => if_pos (le_refl _)
    have hk1 : J1.R.kdim = S.kdim := rfl
    simp only [hN, hPp, hsd, hk1] at e3
    rw [hbs, hr, H2Pack.MV.sum_rows]
    have e4 : ∀ c ∈ range (sl (S.arr.nNode - 1)).jl, ∀ a' ∈ range S.kdim,
        (∑ d ∈ range ((sl (S.arr.nNode - 1)).jl * S.kdim), W (S.arr.nNode - 1) (p * S.kdim + a) (c * S.kdim + a') *
          P.perBlk ((c * S.kdim + a') * ((sl (S.arr.nNode - 1)).jl * S.kdim) + d) * W (S.arr.nNode - 1) (q * S.kdim + b) d) =
        ∑ d ∈ range (sl (S.arr.nNode - 1)).jl, ∑ b' ∈ range S.kdim, W (S.arr.nNode - 1) (p * S.kdim + a) (c * S.kdim + a') *
          diffKern S pkern (nLattice S.ptDim) (lattice K S.ptDim) (pt S ((sl (S.arr.nNode - 1)).jd c)) (pt S ((sl (S.arr.nNode - 1)).jd d)) a' b' *
          W (S.arr.nNode - 1) (q * S.kdim + b) (d * S.kdim + b') := by
      intro c hc a' ha'
      rw [H2Pack.MV.sum_rows]
      apply sum_congr rfl; intro d hd
      apply sum_congr rfl; intro b' hb'
      have hc := mem_range.1 hc
      have hd := mem_range.1 hd
      have ha' := mem_range.1 ha'
      have hb' := mem_range.1 hb'
      congr 2
      have hxd : S.ptDim ≤ S.xdim := by have := hOk.pdim; rw [hform] at this; exact this
      have hPt : ∀ c < (sl (S.arr.nNode - 1)).jl, H2Pack.MV.point S.xdim (sl (S.arr.nNode - 1)).jc (sl (S.arr.nNode - 1)).jl c = pt S ((sl (S.arr.nNode - 1)).jd c) := by
        intro c hc
        funext d
        show (if d < S.xdim then _ else _) = (if d < S.xdim then _ else _)
        by_cases hd : d < S.xdim
        · rw [if_pos hd, if_pos hd]
          exact (hsk _ hroot).coord d hd c hc
        · rw [if_neg hd, if_neg hd]
      have e5 := H2Pack.MV.buildPerBlk_eq (assemble S sl (pairsOf pv) coordIdx mark simd none B D junkM junkW)
        { assemble S sl (pairsOf pv) coordIdx mark simd none B D junkM junkW with kern := pkern } ⟨rfl, rfl, rfl, rfl⟩ (pdim := S.ptDim) (root := S.arr.nNode - 1) (nLat := nLattice S.ptDim) hxd
        (fun j => (S.arr.enbox (S.arr.nNode - 1)).ext j) (lattice K S.ptDim) junkB junkR junkE (i := c) (j := d) (a := a') (b := b') hc hd ha' hb'
      have e6 : P.perBlk ((c * S.kdim + a') * ((sl (S.arr.nNode - 1)).jl * S.kdim) + (d * S.kdim + b')) =
        pkern (H2Pack.MV.point S.xdim (sl (S.arr.nNode - 1)).jc (sl (S.arr.nNode - 1)).jl c) (H2Pack.MV.point S.xdim (sl (S.arr.nNode - 1)).jc (sl (S.arr.nNode - 1)).jl d) a' b' -
        ∑ l ∈ range (nLattice S.ptDim), S.kern (H2Pack.MV.point S.xdim (sl (S.arr.nNode - 1)).jc (sl (S.arr.nNode - 1)).jl c)
          (fun e => H2Pack.MV.point S.xdim (sl (S.arr.nNode - 1)).jc (sl (S.arr.nNode - 1)).jl d e + if e < S.ptDim then (S.arr.enbox (S.arr.nNode - 1)).ext e * lattice K S.ptDim l e else 0) a' b' := by
        rw [hform]; exact e5
      rw [e6, hPt c hc, hPt d hd]
      rfl
    rw [sum_congr rfl fun c hc => sum_congr rfl fun a' ha' => e4 c hc a' ha']
    exact e3
  -- together
  have hsplit : pkern (pt S p) (pt S q) a b - P.entry W (p * S.kdim + a) (q * S.kdim + b) =
      ((pv.adm.map (fun x => if H x then f x.2.2 else 0)).sum - ∑ i ∈ range P.J.R.adm.length, H2Pack.MV.admEntry P.aot W i (p * S.kdim + a) (q * S.kdim + b)) +
      (diffKern S pkern (nLattice S.ptDim) (lattice K S.ptDim) (pt S p) (pt S q) a b - ∑ c ∈ range P.blkSize, ∑ d ∈ range P.blkSize,
      W P.root (p * S.kdim + a) c * P.perBlk (c * P.blkSize + d) * W P.root (q * S.kdim + b) d) := by
    unfold H2Pack.MV.Per.entry diffKern
    rw [hleaf, hin]
    have : ∑ l ∈ range (nLattice S.ptDim), S.kern (pt S p) (fun d => pt S q d + cellShift S (lattice K S.ptDim) l d) a b = ∑ l ∈ range (nLattice S.ptDim), f l := rfl
    rw [this, ← htot]
    ring
  rw [hsplit]
  refine le_trans (abs_add_le _ _) ?_
  have : (1 + Λ) * ((1 + S.arr.maxLevel * Λ) * (nLattice S.ptDim * ε + εr)) = nLattice S.ptDim * E + (1 + Λ) * ((1 + S.arr.maxLevel * Λ) * εr) := by
    rw [hE]; ring
  rw [this]
  exact add_le_add hadm hrt

/-- **C55** (products).  The error of a product is at most that bound times the sum of the magnitudes of the input vector. -/
theorem C55_matvec_error {S : Input K} {pkern : (Nat → K) → (Nat → K) → Nat → Nat → K} {pv : PerPairs} {sl : Nat → Slot K} {P : Per K}
    (hB : BuiltPer S pkern (nLattice S.ptDim) (lattice K S.ptDim) pv sl P) (hdim : S.ptDim = 2 ∨ S.ptDim = 3)
    (hext : ∀ j < S.ptDim, 1 / 10^10 < (S.arr.enbox (S.arr.nNode - 1)).ext j) (h0 : S.ops.zero = 0) (h1 : S.ops.one = 1)
    {W : Nat → Nat → Nat → K} (hW : Nested P.J.R W) {ε εr Λ : K} (hε : 0 ≤ ε) (hεr : 0 ≤ εr)
    (hacc : PerAccurate S pkern (nLattice S.ptDim) (lattice K S.ptDim) pv sl ε εr)
    (hΛ : ∀ v < S.arr.nNode, ∀ r, ∑ t ∈ range (sl v).U.ncol, |W v r t| ≤ Λ) (hΛ1 : 1 ≤ Λ)
    {MB MD : H2Pack.MV.Meta} (hM : P.PerMeta MB MD) (PE : H2Pack.MV.PerEnv K) (hPE : PE.Valid P.J.R) (g : (Nat → Nat) × (Nat → Nat)) (dx dy x : Nat → K) :
    ∃ y, P.matvec PE MB MD g dx dy x = .ok y ∧ ∀ p < S.nPoint, ∀ a < S.kdim,
      |(∑ q ∈ range S.nPoint, ∑ b ∈ range S.kdim, pkern (pt S p) (pt S q) a b * x (P.J.R.coordIdx q * S.kdim + b)) - y (P.J.R.coordIdx p * S.kdim + a)| ≤
      (1 + Λ) * ((1 + S.arr.maxLevel * Λ) * (nLattice S.ptDim * ε + εr)) * ∑ q ∈ range S.nPoint, ∑ b ∈ range S.kdim, |x (P.J.R.coordIdx q * S.kdim + b)| := by
  have hent := @C55_entry_error K _ _ _ S pkern pv sl P hB hdim hext h0 h1 W hW ε εr Λ hε hεr hacc hΛ hΛ1
  have hk : P.J.R.kdim = S.kdim ∧ P.J.R.nPoint = S.nPoint := by
    obtain ⟨⟨coordIdx, mark, simd, B, D, junkM, junkW, mv, pad, junkC, junkB, junkR, junkE, hform⟩, _⟩ := hB
    rw [hform]; exact ⟨rfl, rfl⟩
  obtain ⟨y, y1, y2, _⟩ := H2Pack.MV.Per.matvec_of_meta hB.ok hW hM hPE g dx dy x
  refine ⟨y, y1, fun p hp a ha => ?_⟩
  rw [hk.1, hk.2] at y2
  rw [y2 p hp a ha, ← sum_sub_distrib]
  simp only [← sum_sub_distrib, ← sub_mul]
  rw [mul_sum]
  refine le_trans (abs_sum_le_sum_abs _ _) (sum_le_sum fun q hq => ?_)
  rw [mul_sum]
  refine le_trans (abs_sum_le_sum_abs _ _) (sum_le_sum fun b hb => ?_)
  rw [abs_mul]
  exact mul_le_mul_of_nonneg_right (hent hp (mem_range.1 hq) ha (mem_range.1 hb)) (abs_nonneg _)

/-- **C55** (exactness).  When the interpolation is exact, the product is the one with the dense periodic kernel matrix. -/
theorem C55_exact {S : Input K} {pkern : (Nat → K) → (Nat → K) → Nat → Nat → K} {pv : PerPairs} {sl : Nat → Slot K} {P : Per K}
    (hB : BuiltPer S pkern (nLattice S.ptDim) (lattice K S.ptDim) pv sl P) (hdim : S.ptDim = 2 ∨ S.ptDim = 3)
    (hext : ∀ j < S.ptDim, 1 / 10^10 < (S.arr.enbox (S.arr.nNode - 1)).ext j) (h0 : S.ops.zero = 0) (h1 : S.ops.one = 1)
    (hacc : PerAccurate S pkern (nLattice S.ptDim) (lattice K S.ptDim) pv sl 0 0)
    {MB MD : H2Pack.MV.Meta} (hM : P.PerMeta MB MD) (PE : H2Pack.MV.PerEnv K) (hPE : PE.Valid P.J.R) (g : (Nat → Nat) × (Nat → Nat)) (dx dy x : Nat → K) :
    ∃ y, P.matvec PE MB MD g dx dy x = .ok y ∧ ∀ p < S.nPoint, ∀ a < S.kdim, y (P.J.R.coordIdx p * S.kdim + a) =
      ∑ q ∈ range S.nPoint, ∑ b ∈ range S.kdim, pkern (pt S p) (pt S q) a b * x (P.J.R.coordIdx q * S.kdim + b) := by
  have hw := H2Pack.MV.Per.one_wf hB.ok (fun _ => 1) (fun _ => Nat.one_ne_zero)
  have hWw := H2Pack.MV.basis_nested hw
  obtain ⟨Λ, hΛ1, hΛ⟩ := H2Pack.UJ.rowSum_bound hw hWw
  have hW : Nested P.J.R (H2Pack.MV.basis ({ P.aot with mark := fun _ => 1 } : H2Pack.MV.Rep K)) := ⟨hWw.leaf, hWw.inner⟩
  have e : ∀ v < S.arr.nNode, ∀ r, ∑ t ∈ range (sl v).U.ncol, |H2Pack.MV.basis ({ P.aot with mark := fun _ => 1 } : H2Pack.MV.Rep K) v r t| ≤ Λ := by
    intro v hv r
    have := hΛ v (by
      show v < P.J.R.arr.nNode
      obtain ⟨⟨_, _, _, _, _, _, _, _, _, _, _, _, _, hform⟩, _⟩ := hB
      rw [hform]; exact hv) (by show P.J.R.minAdm ≤ _; rw [hB.ok.minAdm]; exact Nat.zero_le _) r
    have e2 : (({ P.aot with mark := fun _ => 1 } : H2Pack.MV.Rep K).U v).ncol = (sl v).U.ncol := by
      show (P.J.R.U v).ncol = _
      obtain ⟨⟨_, _, _, _, _, _, _, _, _, _, _, _, _, hform⟩, _⟩ := hB
      rw [hform]; rfl
    rw [← e2]; exact this
  obtain ⟨y, y1, y2⟩ := C55_matvec_error hB hdim hext h0 h1 hW (le_refl 0) (le_refl 0) hacc e hΛ1 hM PE hPE g dx dy x
  refine ⟨y, y1, fun p hp a ha => ?_⟩
  have := y2 p hp a ha
  rw [mul_zero, add_zero, mul_zero, mul_zero, zero_mul] at this
  exact (sub_eq_zero.1 (abs_nonpos_iff.1 this)).symm

end
end H2Pack.Per
