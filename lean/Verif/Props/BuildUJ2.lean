import Verif.Proof.BuildUJ2
import Verif.Proof.Skeleton2
import Verif.Spec.Built
import Mathlib.Tactic.Linarith
import Mathlib.Tactic.Ring
import Mathlib.Tactic.NormNum

set_option linter.unusedSectionVars false

/-!
# C50, C51, C52: the constructed representation and how well it approximates the kernel matrix
-/

namespace H2Pack.MV
open H2Pack.Part (Pairs kids ClusterTree Holds)
open Finset

section
variable {K : Type} [CommRing K]

/-- The product with a unit vector gives an entry of the represented matrix. -/
theorem matvec_unit {R : Rep K} (h : WF R) {W : Nat → Nat → Nat → K} (hW : Nested R W) (E : Env K) (hE : E.Valid R) (g : (Nat → Nat) × (Nat → Nat))
    (dx dy : Nat → K) {p q a b : Nat} (hp : p < R.nPoint) (hq : q < R.nPoint) (ha : a < R.kdim) (hb : b < R.kdim) :
    matvec R E g dx dy (fun k => if k = R.coordIdx q * R.kdim + b then 1 else 0) (R.coordIdx p * R.kdim + a) = entry R W (p * R.kdim + a) (q * R.kdim + b) := by
  rw [(C20_matvec h hW E hE g dx dy (fun k => if k = R.coordIdx q * R.kdim + b then 1 else 0)).1 p hp a ha, sum_eq_single q]
  · rw [sum_eq_single b]
    · rw [if_pos rfl, mul_one]
    · intro b' hb' hne
      rw [if_neg (by omega), mul_zero]
    · intro hn; exact absurd (mem_range.2 hb) hn
  · intro j hj hne
    apply sum_eq_zero
    intro b' hb'
    rw [if_neg, mul_zero]
    intro hcon
    exact hne (perm_inj h.perm (mem_range.1 hj) hq (mul_add_inj (mem_range.1 hb') hb hcon).1)
  · intro hn; exact absurd (mem_range.2 hq) hn

variable {J : JIT K} {cand : Nat → Nat → Nat} {nc : Nat → Nat} {jp : Nat → Nat → Nat}

/-- The block of a pair at points of the two sides. -/
theorem admEntry_side (h : WF J.aot) (hs : HasSkel J cand nc jp) {W : Nat → Nat → Nat → K} (hW : Nested J.aot W) {k : Nat} (hk : k < J.R.adm.length)
    {i j a b : Nat} (hi : i < sideN J J.R.adm[k].1 J.R.adm[k].2) (hj : j < sideN J J.R.adm[k].2 J.R.adm[k].1) (ha : a < J.R.kdim) (hb : b < J.R.kdim) :
    admEntry J.aot W k (sideP J jp J.R.adm[k].1 J.R.adm[k].2 i * J.R.kdim + a) (sideP J jp J.R.adm[k].2 J.R.adm[k].1 j * J.R.kdim + b) =
      J.kern (J.pt (sideP J jp J.R.adm[k].1 J.R.adm[k].2 i)) (J.pt (sideP J jp J.R.adm[k].2 J.R.adm[k].1 j)) a b := by
  have hn : J.R.adm[k].1 < J.R.arr.nNode ∧ J.R.adm[k].2 < J.R.arr.nNode := h.admNode _ (List.getElem_mem (l := J.aot.adm) hk)
  have hl : J.R.minAdm ≤ max (J.R.arr.level J.R.adm[k].1) (J.R.arr.level J.R.adm[k].2) := h.admLevel _ (List.getElem_mem (l := J.aot.adm) hk)
  have hl' : J.R.minAdm ≤ max (J.R.arr.level J.R.adm[k].2) (J.R.arr.level J.R.adm[k].1) := by rw [max_comm]; exact hl
  rw [admEntry_points h hs W hk, sum_eq_single i]
  · rw [sum_eq_single a]
    · rw [sum_eq_single j]
      · rw [sum_eq_single b]
        · rw [side_unit h hs hW hn.1 hl hi hi ha ha, side_unit h hs hW hn.2 hl' hj hj hb hb]
          simp
        · intro b' hb' hne
          rw [side_unit h hs hW hn.2 hl' hj hj hb (mem_range.1 hb'), if_neg (fun hc => hne hc.2), mul_zero]
        · intro hc; exact absurd (mem_range.2 hb) hc
      · intro j' hj' hne
        apply sum_eq_zero; intro b' hb'
        rw [side_unit h hs hW hn.2 hl' hj (mem_range.1 hj') hb (mem_range.1 hb'), if_neg (fun hc => hne hc.1), mul_zero]
      · intro hc; exact absurd (mem_range.2 hj) hc
    · intro a' ha' hne
      apply sum_eq_zero; intro j' hj'
      apply sum_eq_zero; intro b' hb'
      rw [side_unit h hs hW hn.1 hl hi hi ha (mem_range.1 ha'), if_neg (fun hc => hne hc.2), zero_mul, zero_mul]
    · intro hc; exact absurd (mem_range.2 ha) hc
  · intro i' hi' hne
    apply sum_eq_zero; intro a' ha'
    apply sum_eq_zero; intro j' hj'
    apply sum_eq_zero; intro b' hb'
    rw [side_unit h hs hW hn.1 hl hi (mem_range.1 hi') ha (mem_range.1 ha'), if_neg (fun hc => hne hc.1), zero_mul, zero_mul]
  · intro hc; exact absurd (mem_range.2 hi) hc

end

end H2Pack.MV

namespace H2Pack.UJ
open H2Pack.Part (Pairs kids ClusterTree Holds Desc h2Pairs hssPairs)
open H2Pack.MV
open Finset

section
variable {K : Type} [Field K] [LinearOrder K] [IsStrictOrderedRing K]

/-- An admissible pair needs a level below the root. -/
theorem minAdm_pos (S : Input K) (T : ClusterTree S.arr S.nPoint) (fuel0 : Nat) (hf0 : 2 * S.arr.nNode ≤ fuel0) (pv : Pairs) (hpv : h2Pairs S.ptDim S.arr fuel0 = .ok pv) (hne : pv.adm ≠ []) : 1 ≤ pv.minAdm := by
  obtain ⟨pv', h1, h2, h3, _⟩ := H2Pack.Part.search_spec T (fun a b => H2Pack.Utils.checkBoxAdmissible (S.arr.enbox a) (S.arr.enbox b) S.ptDim H2Pack.Part.alphaH2) 0 S.arr.maxLevel fuel0 hf0
  have : pv' = pv := by
    have : h2Pairs S.ptDim S.arr fuel0 = .ok pv' := h1
    rw [hpv] at this
    exact (Res.ok.inj this).symm
  subst this
  have g : ∀ x ∈ pv'.adm, 1 ≤ max (S.arr.level x.1) (S.arr.level x.2) := by
    intro x hx
    obtain ⟨a1, a2, a3, _⟩ := h2.1 x hx
    by_contra hc
    have hroot : ∀ v < S.arr.nNode, S.arr.level v = 0 → v = S.arr.nNode - 1 := by
      intro v hv hl
      by_contra hne
      obtain ⟨w, hw, _, hk⟩ := T.childOfParent v (by omega)
      have := T.childLevel w hw v hk
      omega
    have e1 := hroot _ a1 (by omega)
    have e2 := hroot _ a2 (by omega)
    rw [e1, e2] at a3
    have := T.clusterLe (S.arr.nNode - 1) (by have := T.nonempty; omega)
    omega
  have hML : 1 ≤ S.arr.maxLevel := by
    obtain ⟨x, hx⟩ := List.exists_mem_of_ne_nil _ hne
    have := g x hx
    have b1 := T.levelLe _ (h2.1 x hx).1
    have b2 := T.levelLe _ (h2.1 x hx).2.1
    omega
  rw [h3]
  have : ∀ (L : List Nat) (i : Nat), 1 ≤ i → (∀ x ∈ L, 1 ≤ x) → 1 ≤ L.foldl min i := by
    intro L
    induction L with
    | nil => intro i hi _; exact hi
    | cons y L ih =>
      intro i hi hL
      rw [List.foldl_cons]
      exact ih _ (by have := hL y (List.mem_cons_self ..); omega) (fun x hx => hL x (List.mem_cons_of_mem _ hx))
  apply this _ _ hML
  intro x hx
  obtain ⟨y, hy, rfl⟩ := List.mem_map.1 hx
  exact g y hy

/-- What has been constructed is a valid representation, however the nodes were handled. -/
theorem h2_build_of (S : Input K) (T : ClusterTree S.arr S.nPoint) (hkd : 0 < S.kdim) (hO : ∀ a b, S.ops.div a b ≠ .diverge)
    (fuel0 : Nat) (hf0 : 2 * S.arr.nNode ≤ fuel0) (pv : Pairs) (hpv : h2Pairs S.ptDim S.arr fuel0 = .ok pv) (hne : pv.adm ≠ [])
    {st : Nat → Res (Slot K)} {fuel : Nat} {M : Nat → (Nat → Nat) × Nat × (Nat → K) → Nat × (Nat → Nat → K)} (hx : Done S pv.minAdm (nodeWith S fuel M) st)
    (hok : ∀ v < S.arr.nNode, pv.minAdm ≤ S.arr.level v → ∃ s, st v = .ok s ∧ 0 < s.jl) (junk : Nat → Slot K)
    (coordIdx : Nat → Nat) (perm : ((List.range S.nPoint).map coordIdx).Perm (List.range S.nPoint)) (mark : Nat → Nat) (simd : Nat) (hsimd : 0 < simd)
    (bimv : Option (Bimv K)) (hbimv : ∀ f, bimv = some f → BimvSpec simd S.xdim S.kdim S.kern f)
    (small : bimv = none → ∀ v < S.arr.nNode, (S.arr.ptE v - S.arr.ptS v + 1) * S.kdim * S.kdim ≤ 16384)
    (sym : ∀ s t a b, S.kern s t a b = S.kern t s b a) (B D : Nat → Mat K) (junkM junkW : Nat → Nat → K) (E : MetaEnv) (hE : E.Valid S.arr.nNode) :
    ∃ MB MD, Returns (generateB (assemble S (finishUJ pv.minAdm S.arr.level st junk) pv coordIdx mark simd bimv B D junkM junkW) false E) MB ∧
      Returns (generateD (assemble S (finishUJ pv.minAdm S.arr.level st junk) pv coordIdx mark simd bimv B D junkM junkW) false E) MD ∧
      (assemble S (finishUJ pv.minAdm S.arr.level st junk) pv coordIdx MB.nAdm simd bimv B D junkM junkW).Ok ∧
      Built S pv (finishUJ pv.minAdm S.arr.level st junk) (assemble S (finishUJ pv.minAdm S.arr.level st junk) pv coordIdx MB.nAdm simd bimv B D junkM junkW) := by
  have hres : ∀ v < S.arr.nNode, pv.minAdm ≤ S.arr.level v → st v = .ok (finishUJ pv.minAdm S.arr.level st junk v) ∧ 0 < (finishUJ pv.minAdm S.arr.level st junk v).jl := by
    intro v hv hl
    obtain ⟨s, hs, hj⟩ := hok v hv hl
    rw [finish_at hl hs]
    exact ⟨hs, hj⟩
  have hsk : ∀ v < S.arr.nNode, pv.minAdm ≤ S.arr.level v → Skeleton S (finishUJ pv.minAdm S.arr.level st junk) v := fun v hv hl =>
    (done_skeleton T hkd hO hx (fun v hv hl => (hres v hv hl).1) v hv hl).1
  generalize hsl : finishUJ pv.minAdm S.arr.level st junk = sl at *
  have hjl : ∀ v < S.arr.nNode, (sl v).jl ≤ S.arr.ptE v - S.arr.ptS v + 1 := by
    intro v hv
    by_cases hl : pv.minAdm ≤ S.arr.level v
    · have h := hsk v hv hl
      have h1 := h.increasing
      have h2 := h.cluster
      have hn : (sl v).pts.Nodup := h1.imp (fun h => Nat.ne_of_lt h)
      have hsub : (sl v).pts ⊆ List.range' (S.arr.ptS v) (S.arr.ptE v - S.arr.ptS v + 1) := by
        intro x hx
        have := h2 x hx
        rw [List.mem_range'_1]
        omega
      have := (List.subperm_of_subset hn hsub).length_le
      rw [List.length_range', pts_length] at this
      exact this
    · have := (finish_low (m := pv.minAdm) (level := S.arr.level) (st := st) (junk := junk) (v := v) (by omega)).1
      rw [hsl] at this
      omega
  have hbuild := C45_h2_build (assemble S sl pv coordIdx mark simd bimv B D junkM junkW) S.ptDim T fuel0 hf0 pv hpv rfl rfl rfl hne hkd perm hsimd
    (fun v hv hl => (hres v hv hl).2)
    (fun v hv => by
      by_cases hl : pv.minAdm ≤ S.arr.level v
      · exact (hsk v hv hl).cols
      · have := finish_low (m := pv.minAdm) (level := S.arr.level) (st := st) (junk := junk) (v := v) (by omega)
        rw [hsl] at this
        show (sl v).U.ncol = (sl v).jl * S.kdim
        rw [this.1, this.2, Nat.zero_mul])
    (fun v hv hl h0 => (sizes (sl := sl) (coordIdx := coordIdx) (mark := mark) (simd := simd) (bimv := bimv) (B := B) (D := D) (junkM := junkM) (junkW := junkW) T hsk hv hl).1 h0)
    (fun v hv hl h0 => (sizes (sl := sl) (coordIdx := coordIdx) (mark := mark) (simd := simd) (bimv := bimv) (B := B) (D := D) (junkM := junkM) (junkW := junkW) T hsk hv hl).2 h0)
    hbimv (fun hb v hv => ⟨small hb v hv, le_trans (Nat.mul_le_mul_right _ (Nat.mul_le_mul_right _ (hjl v hv))) (small hb v hv)⟩) sym E hE
  obtain ⟨MB, MD, b1, b2, b3, b4⟩ := hbuild
  exact ⟨MB, MD, b1, b2, b3, ⟨coordIdx, MB.nAdm, simd, bimv, B, D, junkM, junkW, rfl⟩, hsk, b4⟩

/-- **C50** (H2, end to end).  The pair search, the construction of skeleton points and bases by any number of threads in any schedule, and the
metadata functions, put together: the metadata functions return, and the result is a valid representation that covers every matrix entry
once.  The one thing asked of the construction is that it returned and found a skeleton point for every node (see `C50_scalar`). -/
theorem C50_h2_build (S : Input K) (T : ClusterTree S.arr S.nPoint) (hkd : 0 < S.kdim) (hO : ∀ a b, S.ops.div a b ≠ .diverge)
    (fuel0 : Nat) (hf0 : 2 * S.arr.nNode ≤ fuel0) (pv : Pairs) (hpv : h2Pairs S.ptDim S.arr fuel0 = .ok pv) (hne : pv.adm ≠ [])
    {fuel P : Nat} {c : H2Pack.DAG.Config (Res (Slot K)) P}
    (hx : H2Pack.DAG.Execution (H2Pack.DAG.upwardDAG S.arr.nNode S.arr.level S.arr.parent pv.minAdm) (ujTask S fuel) c) (hP : 0 < P) (hd : ∀ a, c.th a = .done)
    (hok : ∀ v < S.arr.nNode, pv.minAdm ≤ S.arr.level v → ∃ s, c.res v = .ok s ∧ 0 < s.jl) (junk : Nat → Slot K)
    (coordIdx : Nat → Nat) (perm : ((List.range S.nPoint).map coordIdx).Perm (List.range S.nPoint)) (mark : Nat → Nat) (simd : Nat) (hsimd : 0 < simd)
    (bimv : Option (Bimv K)) (hbimv : ∀ f, bimv = some f → BimvSpec simd S.xdim S.kdim S.kern f)
    (small : bimv = none → ∀ v < S.arr.nNode, (S.arr.ptE v - S.arr.ptS v + 1) * S.kdim * S.kdim ≤ 16384)
    (sym : ∀ s t a b, S.kern s t a b = S.kern t s b a) (B D : Nat → Mat K) (junkM junkW : Nat → Nat → K) (E : MetaEnv) (hE : E.Valid S.arr.nNode) :
    ∃ MB MD, Returns (generateB (assemble S (finishUJ pv.minAdm S.arr.level c.res junk) pv coordIdx mark simd bimv B D junkM junkW) false E) MB ∧
      Returns (generateD (assemble S (finishUJ pv.minAdm S.arr.level c.res junk) pv coordIdx mark simd bimv B D junkM junkW) false E) MD ∧
      (assemble S (finishUJ pv.minAdm S.arr.level c.res junk) pv coordIdx MB.nAdm simd bimv B D junkM junkW).Ok ∧
      Built S pv (finishUJ pv.minAdm S.arr.level c.res junk) (assemble S (finishUJ pv.minAdm S.arr.level c.res junk) pv coordIdx MB.nAdm simd bimv B D junkM junkW) := by
  have hm := minAdm_pos S T fuel0 hf0 pv hpv hne
  have h := execution_done T hm hx hP hd
  rw [ujNode_eq] at h
  exact h2_build_of S T hkd hO fuel0 hf0 pv hpv hne h hok junk coordIdx perm mark simd hsimd bimv hbimv small sym B D junkM junkW E hE

/-- **C50** (HSS, end to end).  Partitioning, the HSS pair search, the neighbour lists, the level by level construction with any order of the nodes
of a level and any matrices to be compressed, and the metadata functions give an HSS representation whose blocks are found by the lookups the ULV
factorizations use; it covers every matrix entry once. -/
theorem C50_hss_build (S : Input K) (xptDim : Nat) (coord : Nat → Nat → K) (mlp : Nat) (mls : K) (hmls : 4 / 10^6 ≤ mls) (box : H2Pack.Utils.Box K)
    (hcube : ∀ j < S.ptDim, box.ext 0 ≤ box.ext j) (Pt : H2Pack.Part.Partitioned K) (O : H2Pack.Part.Outcome S.ptDim xptDim S.nPoint coord mlp mls box Pt)
    (h2 : 2 ≤ Pt.arr.nChild (Pt.arr.nNode - 1)) (fuel0 : Nat) (hf0 : 2 * Pt.arr.nNode ≤ fuel0) (harr : S.arr = Pt.arr) (pv : Pairs)
    (hpv : hssPairs S.ptDim Pt.arr fuel0 = .ok pv) (mx : Nat) (nb : Nat → List Nat) (hl : H2Pack.Part.inadmLists S.ptDim mx 1 Pt.arr = .ok nb)
    (hkd : 0 < S.kdim) (hO : ∀ a b, S.ops.div a b ≠ .diverge)
    (N : Nat → Nat) (A : Nat → Nat → Nat → K) (fuel : Nat) (ord : Nat → List Nat) (hord : ∀ l, (ord l).Perm ((List.range S.arr.nNode).filter (fun v => S.arr.level v = l)))
    (st : Nat → Res (Slot K)) (hok : ∀ v < S.arr.nNode, pv.minAdm ≤ S.arr.level v → ∃ s, hssSweep S pv.minAdm N A fuel ord st v = .ok s ∧ 0 < s.jl) (junk : Nat → Slot K)
    (coordIdx : Nat → Nat) (perm : ((List.range S.nPoint).map coordIdx).Perm (List.range S.nPoint)) (simd : Nat) (hsimd : 0 < simd)
    (bimv : Option (Bimv K)) (hbimv : ∀ f, bimv = some f → BimvSpec simd S.xdim S.kdim S.kern f)
    (small : bimv = none → ∀ v < S.arr.nNode, (S.arr.ptE v - S.arr.ptS v + 1) * S.kdim * S.kdim ≤ 16384)
    (sym : ∀ s t a b, S.kern s t a b = S.kern t s b a) (B D : Nat → Mat K) (junkM junkW : Nat → Nat → K) (E : MetaEnv) (hE : E.Valid S.arr.nNode)
    (J : JIT K) (hJ : J = assemble S (finishUJ pv.minAdm S.arr.level (hssSweep S pv.minAdm N A fuel ord st) junk) pv coordIdx (fun v => (nb v).length) simd bimv B D junkM junkW) :
    H2Pack.ULV.HSS J.aot ∧ J.Ok ∧ Built S pv (finishUJ pv.minAdm S.arr.level (hssSweep S pv.minAdm N A fuel ord st) junk) J ∧
      ∃ MB MD, Returns (generateB J false E) MB ∧ Returns (generateD J false E) MD ∧
      ∀ wB, H2Pack.Utils.Interleaving E.nTask (worksB MB) wB → ∀ wD, H2Pack.Utils.Interleaving E.nTask (worksD J.R.arr.nLeaf MD) wD →
      ∀ (dB dD dstB dstD : Nat → K) (jit : Bool),
        H2Pack.ULV.Blocks J.aot (getBij J MB jit (runB J MB wB dB) dstB) (getDij J MD jit (runD J MD wD dD) dstD) := by
  have T : ClusterTree S.arr S.nPoint := by rw [harr]; exact O.tree
  obtain ⟨pv', h1, e2, hm1, hnd, hex, hdis, hcov⟩ := H2Pack.Part.C12_hss_pairs_exact S.ptDim xptDim coord mlp mls hmls box hcube Pt O h2 fuel0 hf0
  rw [hpv] at h1
  have := Res.ok.inj h1
  subst this
  generalize hst : hssSweep S pv.minAdm N A fuel ord st = st' at *
  have hres : ∀ v < S.arr.nNode, pv.minAdm ≤ S.arr.level v → st' v = .ok (finishUJ pv.minAdm S.arr.level st' junk v) ∧ 0 < (finishUJ pv.minAdm S.arr.level st' junk v).jl := by
    intro v hv hl
    obtain ⟨s, hs, hj⟩ := hok v hv hl
    rw [finish_at hl hs]
    exact ⟨hs, hj⟩
  have hsk : ∀ v < S.arr.nNode, pv.minAdm ≤ S.arr.level v → Skeleton S (finishUJ pv.minAdm S.arr.level st' junk) v := fun v hv hl =>
    (C50_hss_skeletons S T hkd hO pv.minAdm N A fuel ord hord st _ (fun v hv hl => by rw [hst]; exact (hres v hv hl).1) v hv hl).1
  generalize hsl : finishUJ pv.minAdm S.arr.level st' junk = sl at *
  have hjl : ∀ v < S.arr.nNode, (sl v).jl ≤ S.arr.ptE v - S.arr.ptS v + 1 := by
    intro v hv
    by_cases hl : pv.minAdm ≤ S.arr.level v
    · have h := hsk v hv hl
      have hn : (sl v).pts.Nodup := h.increasing.imp (fun h => Nat.ne_of_lt h)
      have hsub : (sl v).pts ⊆ List.range' (S.arr.ptS v) (S.arr.ptE v - S.arr.ptS v + 1) := by
        intro x hx
        have := h.cluster x hx
        rw [List.mem_range'_1]
        omega
      have := (List.subperm_of_subset hn hsub).length_le
      rw [List.length_range', pts_length] at this
      exact this
    · have := (finish_low (m := pv.minAdm) (level := S.arr.level) (st := st') (junk := junk) (v := v) (by omega)).1
      rw [hsl] at this
      omega
  have hb := H2Pack.ULV.C49_hss_build J S.ptDim xptDim coord mlp mls hmls box hcube Pt (by rw [hJ]; exact O) h2 fuel0 hf0 (by rw [hJ]; exact harr) pv hpv
    (by rw [hJ]; rfl) (by rw [hJ]; rfl) (by rw [hJ]; rfl) mx nb hl (by rw [hJ]; rfl) (by rw [hJ]; exact hkd) (by rw [hJ]; exact perm) (by rw [hJ]; exact hsimd)
    (by rw [hJ]; exact fun v hv hl => (hres v hv hl).2)
    (by
      rw [hJ]
      intro v hv
      by_cases hl : pv.minAdm ≤ S.arr.level v
      · exact (hsk v hv hl).cols
      · have := finish_low (m := pv.minAdm) (level := S.arr.level) (st := st') (junk := junk) (v := v) (by omega)
        rw [hsl] at this
        show (sl v).U.ncol = (sl v).jl * S.kdim
        rw [this.1, this.2, Nat.zero_mul])
    (by rw [hJ]; exact fun v hv hl h0 => (sizes (sl := sl) (coordIdx := coordIdx) (mark := fun v => (nb v).length) (simd := simd) (bimv := bimv) (B := B) (D := D) (junkM := junkM) (junkW := junkW) T hsk hv hl).1 h0)
    (by rw [hJ]; exact fun v hv hl h0 => (sizes (sl := sl) (coordIdx := coordIdx) (mark := fun v => (nb v).length) (simd := simd) (bimv := bimv) (B := B) (D := D) (junkM := junkM) (junkW := junkW) T hsk hv hl).2 h0)
    (by rw [hJ]; exact fun v hv hl => (hsk v hv (by rw [hm1]; exact hl)).tall)
    (by rw [hJ]; exact hbimv)
    (by rw [hJ]; exact fun hb v hv => ⟨small hb v hv, le_trans (Nat.mul_le_mul_right _ (Nat.mul_le_mul_right _ (hjl v hv))) (small hb v hv)⟩)
    E (by rw [hJ]; exact hE)
  obtain ⟨b1, b2, b3⟩ := hb
  refine ⟨b1, b2, ⟨⟨coordIdx, _, simd, bimv, B, D, junkM, junkW, hJ⟩, hsk, ⟨b2.wf, by rw [hJ]; rfl, by rw [hJ]; rfl, ?_, by rw [hJ]; exact sym⟩⟩, b3⟩
  have e3 : J.R.arr = Pt.arr := by rw [hJ]; exact harr
  have e4 : J.R.nPoint = S.nPoint := by rw [hJ]; rfl
  rw [e3, e4]
  exact hcov

/-- A point that stands for a node has a number on its side. -/
theorem onSide_num {S : Input K} {sl : Nat → Slot K} {pv : Pairs} {coordIdx mark : Nat → Nat} {simd : Nat} {bimv : Option (Bimv K)}
    {B D : Nat → Mat K} {junkM junkW : Nat → Nat → K} {v w p : Nat} (h : OnSide S sl v w p) :
    ∃ i < sideN (assemble S sl pv coordIdx mark simd bimv B D junkM junkW) v w, sideP (assemble S sl pv coordIdx mark simd bimv B D junkM junkW) (fun v => (sl v).jd) v w i = p := by
  unfold OnSide at h
  have e : (assemble S sl pv coordIdx mark simd bimv B D junkM junkW).R.arr = S.arr := rfl
  unfold sideN sideP
  rw [e]
  by_cases hl : S.arr.level w ≤ S.arr.level v
  · rw [if_pos hl] at h
    obtain ⟨k, hk, he⟩ := List.mem_map.1 h
    refine ⟨k, by rw [if_pos hl]; exact List.mem_range.1 hk, by rw [if_pos hl]; exact he⟩
  · rw [if_neg hl] at h
    refine ⟨p - S.arr.ptS v, ?_, ?_⟩
    · rw [if_neg hl]
      show _ < S.arr.ptE v - S.arr.ptS v + 1
      omega
    · rw [if_neg hl]; omega

/-- **C51**.  The compressed matrix is exact at skeleton points: for an admissible pair and points that stand for its two nodes, the product with a
unit vector gives the kernel value, in both directions, whatever the tolerance and however large the error of the interpolation is. -/
theorem C51_skeleton_exact {S : Input K} {pv : Pairs} {sl : Nat → Slot K} {J : JIT K} (hB : Built S pv sl J) (h0 : S.ops.zero = 0) (h1 : S.ops.one = 1)
    (E : Env K) (hE : E.Valid J.aot) (g : (Nat → Nat) × (Nat → Nat)) (dx dy : Nat → K) (x : Nat × Nat) (hx : x ∈ pv.adm) {p q : Nat} (hp : OnSide S sl x.1 x.2 p) (hq : OnSide S sl x.2 x.1 q)
    {a b : Nat} (ha : a < S.kdim) (hb : b < S.kdim) :
    matvec J.aot E g dx dy (fun k => if k = J.R.coordIdx q * S.kdim + b then 1 else 0) (J.R.coordIdx p * S.kdim + a) = S.kern (pt S p) (pt S q) a b ∧
    matvec J.aot E g dx dy (fun k => if k = J.R.coordIdx p * S.kdim + a then 1 else 0) (J.R.coordIdx q * S.kdim + b) = S.kern (pt S q) (pt S p) b a := by
  obtain ⟨⟨coordIdx, mark, simd, bimv, B, D, junkM, junkW, rfl⟩, hsk, hC⟩ := hB
  have T : ClusterTree S.arr S.nPoint := hC.wf.tree
  have hS := hasSkel (sl := sl) (coordIdx := coordIdx) (mark := mark) (simd := simd) (bimv := bimv) (B := B) (D := D) (junkM := junkM) (junkW := junkW) T h0 h1 hsk
  obtain ⟨k, hk, hkx⟩ := List.getElem_of_mem hx
  have hk' : k < (assemble S sl pv coordIdx mark simd bimv B D junkM junkW).R.adm.length := hk
  have hkx' : (assemble S sl pv coordIdx mark simd bimv B D junkM junkW).R.adm[k] = x := hkx
  have hW := basis_nested hC.wf
  have hn : x.1 < S.arr.nNode ∧ x.2 < S.arr.nNode := by
    have := hC.wf.admNode x hx
    exact this
  have hl : pv.minAdm ≤ max (S.arr.level x.1) (S.arr.level x.2) := hC.wf.admLevel x hx
  obtain ⟨i, hi, hpi⟩ := onSide_num (pv := pv) (coordIdx := coordIdx) (mark := mark) (simd := simd) (bimv := bimv) (B := B) (D := D) (junkM := junkM) (junkW := junkW) hp
  obtain ⟨j, hj, hqj⟩ := onSide_num (pv := pv) (coordIdx := coordIdx) (mark := mark) (simd := simd) (bimv := bimv) (B := B) (D := D) (junkM := junkM) (junkW := junkW) hq
  have pin := sideP_in hS (v := x.1) (w := x.2) hn.1 (T.clusterLe _ hn.1) hl hi
  have qin := sideP_in hS (v := x.2) (w := x.1) hn.2 (T.clusterLe _ hn.2) (by rw [max_comm]; exact hl) hj
  rw [hpi] at pin
  rw [hqj] at qin
  have p1 : S.arr.ptS x.1 ≤ p ∧ p ≤ S.arr.ptE x.1 := pin
  have q1 : S.arr.ptS x.2 ≤ q ∧ q ≤ S.arr.ptE x.2 := qin
  have pn : p < S.nPoint := by have := T.clusterLt _ hn.1; omega
  have qn : q < S.nPoint := by have := T.clusterLt _ hn.2; omega
  have hfar := C46_far_entry hC hW (p := p) (q := q) (a := a) (b := b) pn qn ha hb hk' (by rw [hkx']; unfold Holds; exact ⟨p1, q1.1, q1.2⟩)
  have hside := admEntry_side hC.wf hS hW hk' (i := i) (j := j) (a := a) (b := b) (by rw [hkx']; exact hi) (by rw [hkx']; exact hj) ha hb
  simp only [hkx'] at hside
  rw [hpi, hqj] at hside
  constructor
  · exact (matvec_unit hC.wf hW E hE g dx dy pn qn ha hb).trans (hfar.1.trans hside)
  · exact (matvec_unit hC.wf hW E hE g dx dy qn pn hb ha).trans (hfar.2.trans (hside.trans (hC.sym _ _ _ _)))

/-- The two forms of the local error. -/
theorem localErr_eq {S : Input K} {pv : Pairs} {sl : Nat → Slot K} {coordIdx mark : Nat → Nat} {simd : Nat} {bimv : Option (Bimv K)}
    {B D : Nat → Mat K} {junkM junkW : Nat → Nat → K} {u : Nat} (hu : Skeleton S sl u) (i a y b : Nat) :
    localErr (assemble S sl pv coordIdx mark simd bimv B D junkM junkW) (fun v i => (cands S sl v).getD i 0) (fun v => (sl v).jd)
      (farG (assemble S sl pv coordIdx mark simd bimv B D junkM junkW) y b) u i a = farErr S sl u i a y b := by
  unfold localErr farErr
  have e : ((assemble S sl pv coordIdx mark simd bimv B D junkM junkW).R.U u).ncol = (sl u).jl * S.kdim := hu.cols
  rw [e, sum_rows]
  congr 1
  apply sum_congr rfl; intro k hk
  apply sum_congr rfl; intro a' ha'
  unfold skVal
  have e1 : (assemble S sl pv coordIdx mark simd bimv B D junkM junkW).R.kdim = S.kdim := rfl
  rw [e1, (div_mod_row (mem_range.1 ha')).1, (div_mod_row (mem_range.1 ha')).2]
  rfl

/-- What the approximation theorems assume: every node `u` below a node `v` of an admissible pair `v`, `w` interpolates the kernel values with the points of
`w` with error at most `ε` when the basis of `v` is used for the pair. -/
def FarAccurate (S : Input K) (sl : Nat → Slot K) (pv : Pairs) (ε : K) : Prop :=
  ∀ v w, ((v, w) ∈ pv.adm ∨ (w, v) ∈ pv.adm) → S.arr.level w ≤ S.arr.level v → ∀ u, Desc S.arr u v →
    ∀ y, S.arr.ptS w ≤ y → y ≤ S.arr.ptE w → ∀ b < S.kdim, ∀ i < (cands S sl u).length, ∀ a < S.kdim, |farErr S sl u i a y b| ≤ ε

/-- **C52** (entries).  The error of every entry of the compressed matrix is bounded by the error of the interpolation at a single node, the depth of
the tree and the row sums `Λ` of the nested bases: the bound grows linearly with the depth. -/
theorem C52_entry_error {S : Input K} {pv : Pairs} {sl : Nat → Slot K} {J : JIT K} (hB : Built S pv sl J) (h0 : S.ops.zero = 0) (h1 : S.ops.one = 1)
    {W : Nat → Nat → Nat → K} (hW : Nested J.aot W) {ε Λ : K} (hε : 0 ≤ ε) (hfar : FarAccurate S sl pv ε)
    (hΛ : ∀ v < S.arr.nNode, pv.minAdm ≤ S.arr.level v → ∀ r, ∑ t ∈ range (sl v).U.ncol, |W v r t| ≤ Λ) (hΛ1 : 1 ≤ Λ)
    {p q a b : Nat} (hp : p < S.nPoint) (hq : q < S.nPoint) (ha : a < S.kdim) (hb : b < S.kdim) :
    |S.kern (pt S p) (pt S q) a b - entry J.aot W (p * S.kdim + a) (q * S.kdim + b)| ≤ (1 + Λ) * ((1 + S.arr.maxLevel * Λ) * ε) := by
  obtain ⟨⟨coordIdx, mark, simd, bimv, B, D, junkM, junkW, rfl⟩, hsk, hC⟩ := hB
  have T : ClusterTree S.arr S.nPoint := hC.wf.tree
  have hS := hasSkel (sl := sl) (coordIdx := coordIdx) (mark := mark) (simd := simd) (bimv := bimv) (B := B) (D := D) (junkM := junkM) (junkW := junkW) T h0 h1 hsk
  have hF : FarOk (assemble S sl pv coordIdx mark simd bimv B D junkM junkW) (fun v i => (cands S sl v).getD i 0) (fun v => (cands S sl v).length) (fun v => (sl v).jd) ε := by
    intro v w hvw hlv u hu y y1 y2 b hb i hi a ha
    have hvw' : (v, w) ∈ pv.adm ∨ (w, v) ∈ pv.adm := hvw
    have hv : v < S.arr.nNode := by
      rcases hvw' with h | h
      · exact (hC.wf.admNode _ h).1
      · exact (hC.wf.admNode _ h).2
    have hlv' : S.arr.level w ≤ S.arr.level v := hlv
    have hml : pv.minAdm ≤ S.arr.level v := by
      rcases hvw' with h | h
      · have : pv.minAdm ≤ max (S.arr.level v) (S.arr.level w) := hC.wf.admLevel _ h
        omega
      · have : pv.minAdm ≤ max (S.arr.level w) (S.arr.level v) := hC.wf.admLevel _ h
        omega
    have hul : u < S.arr.nNode ∧ pv.minAdm ≤ S.arr.level u := by
      have hd : Desc S.arr u v := hu
      clear hu hlv' hvw hvw' hlv
      induction hd with
      | refl => exact ⟨hv, hml⟩
      | @step c v hc _ ih =>
        obtain ⟨_, a2, a3⟩ := kid_facts T hv hml hc
        exact ih a2 a3
    rw [localErr_eq (hsk u hul.1 hul.2)]
    exact hfar v w hvw' hlv' u hu y y1 y2 b hb i hi a ha
  have hb0 : (0 : K) ≤ (1 + Λ) * ((1 + S.arr.maxLevel * Λ) * ε) := by
    have : 0 ≤ Λ := by linarith
    positivity
  by_cases hnear : ∀ x ∈ pv.adm, ¬ Holds S.arr p q x ∧ ¬ Holds S.arr q p x
  · have := C46_near_entry hC hW (p := p) (q := q) (a := a) (b := b) hp hq ha hb hnear
    have e : entry (assemble S sl pv coordIdx mark simd bimv B D junkM junkW).aot W (p * S.kdim + a) (q * S.kdim + b) = S.kern (pt S p) (pt S q) a b := this
    rw [e, sub_self, abs_zero]
    exact hb0
  · push Not at hnear
    obtain ⟨x, hx, hh⟩ := hnear
    obtain ⟨k, hk, hkx⟩ := List.getElem_of_mem hx
    have hk' : k < (assemble S sl pv coordIdx mark simd bimv B D junkM junkW).R.adm.length := hk
    have hkx' : (assemble S sl pv coordIdx mark simd bimv B D junkM junkW).R.adm[k] = x := hkx
    by_cases hpq : Holds S.arr p q x
    · have e := (C46_far_entry hC hW (p := p) (q := q) (a := a) (b := b) hp hq ha hb hk' (by rw [hkx']; exact hpq)).1
      have e' : entry (assemble S sl pv coordIdx mark simd bimv B D junkM junkW).aot W (p * S.kdim + a) (q * S.kdim + b) =
        admEntry (assemble S sl pv coordIdx mark simd bimv B D junkM junkW).aot W k (p * S.kdim + a) (q * S.kdim + b) := e
      rw [e']
      exact pair_err hC.wf hS hW hC.sym hε hΛ hΛ1 hF hk' (by rw [hkx']; exact hpq) ha hb
    · have hqp := hh hpq
      have e := (C46_far_entry hC hW (p := q) (q := p) (a := b) (b := a) hq hp hb ha hk' (by rw [hkx']; exact hqp)).2
      have e' : entry (assemble S sl pv coordIdx mark simd bimv B D junkM junkW).aot W (p * S.kdim + a) (q * S.kdim + b) =
        admEntry (assemble S sl pv coordIdx mark simd bimv B D junkM junkW).aot W k (q * S.kdim + b) (p * S.kdim + a) := e
      have es : S.kern (pt S p) (pt S q) a b = S.kern (pt S q) (pt S p) b a := hC.sym _ _ _ _
      rw [e', es]
      exact pair_err hC.wf hS hW hC.sym hε hΛ hΛ1 hF hk' (by rw [hkx']; exact hqp) hb ha

/-- **C52** (products).  The error of the product is bounded by that bound times the sum of the magnitudes of the input vector. -/
theorem C52_matvec_error {S : Input K} {pv : Pairs} {sl : Nat → Slot K} {J : JIT K} (hB : Built S pv sl J) (h0 : S.ops.zero = 0) (h1 : S.ops.one = 1)
    {W : Nat → Nat → Nat → K} (hW : Nested J.aot W) {ε Λ : K} (hε : 0 ≤ ε) (hfar : FarAccurate S sl pv ε)
    (hΛ : ∀ v < S.arr.nNode, pv.minAdm ≤ S.arr.level v → ∀ r, ∑ t ∈ range (sl v).U.ncol, |W v r t| ≤ Λ) (hΛ1 : 1 ≤ Λ)
    (E : Env K) (hE : E.Valid J.aot) (g : (Nat → Nat) × (Nat → Nat)) (dx dy x : Nat → K) {p a : Nat} (hp : p < S.nPoint) (ha : a < S.kdim) :
    |(∑ q ∈ range S.nPoint, ∑ b ∈ range S.kdim, S.kern (pt S p) (pt S q) a b * x (J.R.coordIdx q * S.kdim + b)) - matvec J.aot E g dx dy x (J.R.coordIdx p * S.kdim + a)| ≤
      (1 + Λ) * ((1 + S.arr.maxLevel * Λ) * ε) * ∑ q ∈ range S.nPoint, ∑ b ∈ range S.kdim, |x (J.R.coordIdx q * S.kdim + b)| := by
  have hent := @C52_entry_error K _ _ _ S pv sl J hB h0 h1 W hW ε Λ hε hfar hΛ hΛ1
  have hk : J.aot.kdim = S.kdim ∧ J.aot.nPoint = S.nPoint ∧ J.aot.coordIdx = J.R.coordIdx := by
    obtain ⟨⟨_, _, _, _, _, _, _, _, rfl⟩, _, _⟩ := hB
    exact ⟨rfl, rfl, rfl⟩
  obtain ⟨k1, k2, k3⟩ := hk
  have C := (C20_matvec hB.covered.wf hW E hE g dx dy x).1 p (by rw [k2]; exact hp) a (by rw [k1]; exact ha)
  rw [k1, k2, k3] at C
  rw [C, ← sum_sub_distrib]
  simp only [← sum_sub_distrib, ← sub_mul]
  rw [mul_sum]
  refine le_trans (abs_sum_le_sum_abs _ _) (sum_le_sum fun q hq => ?_)
  rw [mul_sum]
  refine le_trans (abs_sum_le_sum_abs _ _) (sum_le_sum fun b hb => ?_)
  rw [abs_mul]
  exact mul_le_mul_of_nonneg_right (hent hp (mem_range.1 hq) ha (mem_range.1 hb)) (abs_nonneg _)

/-- Row sums are bounded. -/
theorem rowSum_bound {R : Rep K} (h : WF R) {W : Nat → Nat → Nat → K} (hW : Nested R W) :
    ∃ Λ, 1 ≤ Λ ∧ ∀ v < R.arr.nNode, R.minAdm ≤ R.arr.level v → ∀ r, ∑ t ∈ range (R.U v).ncol, |W v r t| ≤ Λ := by
  refine ⟨1 + ∑ v ∈ range R.arr.nNode, ∑ r ∈ range (R.rowE v), ∑ t ∈ range (R.U v).ncol, |W v r t|, ?_, ?_⟩
  · have : 0 ≤ ∑ v ∈ range R.arr.nNode, ∑ r ∈ range (R.rowE v), ∑ t ∈ range (R.U v).ncol, |W v r t| :=
      sum_nonneg fun _ _ => sum_nonneg fun _ _ => sum_nonneg fun _ _ => abs_nonneg _
    linarith
  · intro v hv hl r
    by_cases hr : r < R.rowE v
    · have h1 := single_le_sum (f := fun r => ∑ t ∈ range (R.U v).ncol, |W v r t|) (fun _ _ => sum_nonneg fun _ _ => abs_nonneg _) (mem_range.2 hr)
      have h2 := single_le_sum (f := fun v => ∑ r ∈ range (R.rowE v), ∑ t ∈ range (R.U v).ncol, |W v r t|) (fun _ _ => sum_nonneg fun _ _ => sum_nonneg fun _ _ => abs_nonneg _) (mem_range.2 hv)
      linarith
    · rw [sum_eq_zero fun t ht => by rw [nested_zero h hW v hv hl r (fun hc => hr hc.2) t (mem_range.1 ht), abs_zero]]
      have : 0 ≤ ∑ v ∈ range R.arr.nNode, ∑ r ∈ range (R.rowE v), ∑ t ∈ range (R.U v).ncol, |W v r t| :=
        sum_nonneg fun _ _ => sum_nonneg fun _ _ => sum_nonneg fun _ _ => abs_nonneg _
      linarith

/-- **C52** (exactness).  When the interpolation is exact on the far points, `H2P_matvec` computes the product with the dense kernel matrix. -/
theorem C52_exact {S : Input K} {pv : Pairs} {sl : Nat → Slot K} {J : JIT K} (hB : Built S pv sl J) (h0 : S.ops.zero = 0) (h1 : S.ops.one = 1) (hfar : FarAccurate S sl pv 0)
    (E : Env K) (hE : E.Valid J.aot) (g : (Nat → Nat) × (Nat → Nat)) (dx dy x : Nat → K) {p a : Nat} (hp : p < S.nPoint) (ha : a < S.kdim) :
    matvec J.aot E g dx dy x (J.R.coordIdx p * S.kdim + a) = ∑ q ∈ range S.nPoint, ∑ b ∈ range S.kdim, S.kern (pt S p) (pt S q) a b * x (J.R.coordIdx q * S.kdim + b) := by
  have hW := basis_nested hB.covered.wf
  obtain ⟨Λ, hΛ1, hΛ⟩ := rowSum_bound hB.covered.wf hW
  have e : J.aot.arr = S.arr ∧ J.aot.minAdm = pv.minAdm ∧ ∀ v, (J.aot.U v).ncol = (sl v).U.ncol := by
    obtain ⟨⟨_, _, _, _, _, _, _, _, rfl⟩, _, _⟩ := hB
    exact ⟨rfl, rfl, fun _ => rfl⟩
  rw [e.1, e.2.1] at hΛ
  have := C52_matvec_error hB h0 h1 hW (le_refl (0 : K)) hfar (fun v hv hl r => by rw [← e.2.2]; exact hΛ v hv hl r) hΛ1 E hE g dx dy x hp ha
  rw [mul_zero, mul_zero, zero_mul] at this
  exact (sub_eq_zero.1 (abs_nonpos_iff.1 this)).symm

end

end H2Pack.UJ
