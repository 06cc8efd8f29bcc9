import Verif.Proof.FileIO8
import Verif.Props.Entries

/-!
# C30, C31: storing a matrix to files and reading it back
-/

namespace H2Pack.IO
open H2Pack.MV
open H2Pack.Part (Arr kids ClusterTree targetList)

section
variable {K : Type} [CommRing K]

/-- **C30.** A built matrix whose coordinates have sixteen hexadecimal digits is stored, converted to JSON and back, and
loaded without error, and the loaded matrix has the same tree, point order, bases, pairs, coordinates, skeleton points (and
blocks, when they are loaded) and the metadata that a build computes; whatever the newly allocated memory contains. -/
theorem C30_store_load (F : Fmt K) (zero : K) {H : Mtx K} (h : Storable H) (hf : Doubles F H) (hw : Wide F H) (gB gD : Nat → Nat → K) (c0 : Nat → K)
    (tmp : Blk K) (jit : Bool) (G : Fresh K) (u : User K) (E : MetaEnv) (hE : E.Valid H.J.R.arr.nNode) (marks : Nat → Nat) :
    ∃ H' : Mtx K, (∃ N, ∀ fuel ≥ N, storeLoad F zero H gB gD c0 tmp jit G u E marks fuel = some (.ok H')) ∧
      SameTree H.J.R H'.J.R ∧ SameData H H' ∧ (jit = false → SameBlocks H.J.aot H'.J.R) ∧ H'.jit = jit ∧
      Returns (generateB H.J false E) H'.MB ∧ Returns (generateD H.J false E) H'.MD ∧ H'.tol = F.e6 (F.e6 H.tol) := by
  obtain ⟨H', h1, h2, h3, h4, h5, h6, h7, _, _, _, _, _, _, h8⟩ := storeLoad_ok F zero h hf hw gB gD c0 tmp jit G u E hE marks
  exact ⟨H', h1, h2, h3, h4, h5, h6, h7, h8⟩

/-- **C30.** The product of the loaded matrix with any vector is the product of the original, with any numbers of threads,
schedules and buffer contents (blocks loaded from the file).  In HSS mode this needs non-zero marks, which section 13 does not
provide, see `C30_box_overrun`. -/
theorem C30_matvec_aot (F : Fmt K) (zero : K) {H : Mtx K} (h : Storable H) (hf : Doubles F H) (hw : Wide F H) (gB gD : Nat → Nat → K) (c0 : Nat → K)
    (tmp : Blk K) (G : Fresh K) (u : User K) (E : MetaEnv) (hE : E.Valid H.J.R.arr.nNode) (marks : Nat → Nat)
    (hm : H.isHSS = true → ∀ x ∈ H.J.R.adm, marks x.1 ≠ 0 ∧ marks x.2 ≠ 0) :
    ∃ H' : Mtx K, (∃ N, ∀ fuel ≥ N, storeLoad F zero H gB gD c0 tmp false G u E marks fuel = some (.ok H')) ∧
      ∀ (V V' : Env K), V.Valid H.J.aot → V'.Valid H'.J.R → ∀ (g g' : (Nat → Nat) × (Nat → Nat)) (dx dy dx' dy' x : Nat → K),
        ∀ k < H.J.R.nPoint * H.J.R.kdim, matvec H'.J.R V' g' dx' dy' x k = matvec H.J.aot V g dx dy x k := by
  obtain ⟨H', h1, h2, h3, h4, _, _, _, hmk, hM, _⟩ := storeLoad_ok F zero h hf hw gB gD c0 tmp false G u E hE marks
  refine ⟨H', h1, fun V V' hV hV' g g' dx dy dx' dy' x k hk => ?_⟩
  have hst : SameTree H.J.aot H'.J.R := ⟨h2.nNode, h2.nLeaf, h2.maxLevel, h2.maxChild, h2.level, h2.ptS, h2.ptE, h2.nChild, h2.children, h2.parent, h2.levels, h2.leaf,
    h2.nPoint, h2.kdim, h2.idx, h2.U, h2.adm, h2.inadm, h2.minAdm⟩
  refine matvec_same hst (h4 rfl) h.wf ?_ hV hV' g g' dx dy dx' dy' x hk
  cases hh : H.isHSS with
  | false => exact hM hh
  | true =>
    intro x hx
    rw [h2.adm] at hx
    rw [hmk, hh]
    exact ⟨fun _ => (hm hh x hx).1, fun _ => (hm hh x hx).2⟩

/-- **C30.** The same when the blocks are evaluated on the fly by the kernel given to the reader, if it is the kernel of the
original. -/
theorem C30_matvec_jit (F : Fmt K) (zero : K) {H : Mtx K} (h : Storable H) (hok : H.J.Ok) (hf : Doubles F H) (hw : Wide F H) (gB gD : Nat → Nat → K) (c0 : Nat → K)
    (tmp : Blk K) (G : Fresh K) (u : User K) (hu : u.kern = H.J.kern ∧ u.simd = H.J.simd ∧ u.bimv = H.J.bimv) (E : MetaEnv) (hE : E.Valid H.J.R.arr.nNode) (marks : Nat → Nat)
    (hm : H.isHSS = true → ∀ x ∈ H.J.R.adm, marks x.1 ≠ 0 ∧ marks x.2 ≠ 0) :
    ∃ H' : Mtx K, (∃ N, ∀ fuel ≥ N, storeLoad F zero H gB gD c0 tmp true G u E marks fuel = some (.ok H')) ∧
      ∀ (V V' : Env K), V.Valid H.J.aot → V'.Valid H'.J.aot → ∀ (g g' : (Nat → Nat) × (Nat → Nat)) (dx dy dx' dy' : Nat → K) (g0 g1 : Nat → Nat → K) (gx x : Nat → K),
        ∃ N, ∀ fuel, N ≤ fuel → ∃ y, H'.J.matvec V' g' dx' dy' g0 g1 gx fuel x = .ok y ∧
          ∀ k < H.J.R.nPoint * H.J.R.kdim, y k = matvec H.J.aot V g dx dy x k := by
  obtain ⟨H', h1, h2, h3, h4, _, _, _, hmk, hM, hx, hs, hk, hb, _⟩ := storeLoad_ok F zero h hf hw gB gD c0 tmp true G u E hE marks
  refine ⟨H', h1, fun V V' hV hV' g g' dx dy dx' dy' g0 g1 gx x => ?_⟩
  refine matvec_jit_same h hok h2 h3 ?_ hx (hk.trans hu.1) (hs.trans hu.2.1) (hb.trans hu.2.2) V V' hV hV' g g' dx dy dx' dy' g0 g1 gx x
  cases hh : H.isHSS with
  | false => exact hM hh
  | true =>
    intro x hx
    rw [h2.adm] at hx
    rw [hmk, hh]
    exact ⟨fun _ => (hm hh x hx).1, fun _ => (hm hh x hx).2⟩

/-- **C31.** Coordinates come back exactly: the loaded coordinates, in the order of the tree and in the caller's order, have the
bits of the stored ones. -/
theorem C31_coordinates (F : Fmt K) (zero : K) {H : Mtx K} (h : Storable H) (hf : Doubles F H) (hw : Wide F H) (gB gD : Nat → Nat → K) (c0 : Nat → K)
    (tmp : Blk K) (jit : Bool) (G : Fresh K) (u : User K) (E : MetaEnv) (hE : E.Valid H.J.R.arr.nNode) (marks : Nat → Nat) :
    ∃ H' : Mtx K, (∃ N, ∀ fuel ≥ N, storeLoad F zero H gB gD c0 tmp jit G u E marks fuel = some (.ok H')) ∧
      ∀ i < H.J.R.nPoint, ∀ j < H.ptDim, F.bits (H'.J.coord (j * H.J.R.nPoint + i)) = F.bits (H.J.coord (j * H.J.R.nPoint + i)) ∧
        H'.J.R.coordIdx i = H.J.R.coordIdx i := by
  obtain ⟨H', h1, h2, h3, _⟩ := storeLoad_ok F zero h hf hw gB gD c0 tmp jit G u E hE marks
  exact ⟨H', h1, fun i hi j hj => ⟨by rw [h3.coord i hi j hj], h2.idx i hi⟩⟩

/-- **C31.** The text survives exactly when every coordinate has sixteen hexadecimal digits, i.e. its bit pattern is at least
`2^60`; otherwise (for instance with a coordinate `0.0`, whose bit pattern is zero) the conversion to JSON fails and
writes nothing. -/
theorem C31_conversion_iff (F : Fmt K) {H : Mtx K} (h : Storable H) (hf : Doubles F H) (gB gD : Nat → Nat → K) (c0 : Nat → K) (tmp : Blk K) :
    ∃ f, store F H gB gD c0 tmp = some f ∧ ((∃ js, txtToJson f.1 = some js) ↔ Wide F H) := by
  have hp : ((List.range H.J.R.nPoint).map H.J.R.coordIdx).Perm (List.range H.J.R.nPoint) := h.wf.perm
  have hco := origCoord_eq (dim := H.ptDim) (fun i hi j hj e => perm_inj hp hi hj e) H.J.coord c0
  refine ⟨_, store_eq F h.lookups (by have := h.dims; omega) gB gD c0 tmp, ?_⟩
  have hT := txtToJson_txt F H (origCoord H.J.R.nPoint H.ptDim H.J.R.coordIdx H.J.coord c0) (F.e6 H.tol) h.tree.nLeaf
  constructor
  · rintro ⟨js, hjs⟩ i hi j hj
    by_contra hc
    have := hT.2 ⟨_, perm_lt hp hi, j, hj, by rw [hco i hi j hj]; omega⟩
    dsimp only at hjs
    rw [this] at hjs
    cases hjs
  · intro hw
    refine ⟨_, hT.1 ?_⟩
    intro i hi j hj
    obtain ⟨p, hp', rfl⟩ := perm_surj hp hi
    rw [hco p hp' j hj]
    exact ⟨(hf p hp' j hj).1, hw p hp' j hj⟩

/-- **C31.** The hexadecimal text itself: writing and scanning is the identity on 64-bit numbers, and the script accepts exactly
the numbers with sixteen digits. -/
theorem C31_hex (n : Nat) (hn : n < 2 ^ 64) : hexValue (hexDigits n) = n ∧ hexToDouble (hexDigits n) = if 2 ^ 60 ≤ n then some n else none :=
  ⟨hexValue_hexDigits n, hexToDouble_hexDigits n hn⟩

end

/-! ## The last step of the reader -/

section
variable {K : Type} [Field K] [LinearOrder K]

theorem foldlM_ub {α β : Type} (L : List α) (f : β → α → Res β) (h1 : ∀ x ∈ L, ∀ s, f s x ≠ .diverge) {x : α} (hx : x ∈ L) (h2 : ∀ s, f s x = .ub) (s : β) : L.foldlM f s = .ub := by
  induction L generalizing s with
  | nil => cases hx
  | cons y L ih =>
    rw [List.foldlM_cons]
    cases hy : f s y with
    | ub => rfl
    | diverge => exact absurd hy (h1 y (by simp) s)
    | ok a =>
      rw [Res.bind_ok]
      rcases List.mem_cons.1 hx with rfl | hx
      · rw [h2] at hy; cases hy
      · exact ih (fun z hz => h1 z (List.mem_cons_of_mem _ hz)) hx a

theorem foldlM_no_div {α β : Type} (L : List α) (f : β → α → Res β) (h1 : ∀ x ∈ L, ∀ s, f s x ≠ .diverge) (s : β) : L.foldlM f s ≠ .diverge := by
  induction L generalizing s with
  | nil => intro h; cases h
  | cons y L ih =>
    rw [List.foldlM_cons]
    cases hy : f s y with
    | ub => intro h; cases h
    | diverge => exact absurd hy (h1 y (by simp) s)
    | ok a => rw [Res.bind_ok]; exact ih (fun z hz => h1 z (List.mem_cons_of_mem _ hz)) a

/-- **C30 (defect).** The last step of `H2P_read_from_file` reads boxes behind the end of the array as soon as some node other
than node 0 is on a level that is visited. -/
theorem C30_box_overrun {A : Arr K} {n : Nat} (T : ClusterTree A n) (ptDim mx minAdm : Nat) {v : Nat} (hv : v < A.nNode) (h1 : 1 ≤ v) (hl : minAdm ≤ A.level v) :
    readerLists ptDim mx minAdm A = .ub := by
  have hmem : ∀ l, (List.range (A.levelN l)).map (fun j => A.levelNodes (l * A.nLeaf + j)) = (List.range A.nNode).filter (fun v => A.level v = l) := fun l => T.levelList l
  have hin : ∀ node l, ∀ t ∈ targetList A l, ∀ s, (fun (l : List Nat) t =>
        if 1 ≤ node ∨ 1 ≤ t then (.ub : Res (List Nat))
        else if H2Pack.Utils.checkBoxAdmissible (A.enbox node) (A.enbox t) ptDim H2Pack.Part.alphaH2 = false ∧
           H2Pack.Utils.checkBoxAdmissible (A.enbox node) (A.enbox t) ptDim H2Pack.Part.alphaHSS = true ∧ t ≠ node then
          if l.length < mx then .ok (l ++ [t]) else .ub
        else .ok l) s t ≠ .diverge := by
    intro node l t _ s
    dsimp only
    split_ifs <;> (intro h; cases h)
  unfold readerLists listsWithBoxes
  refine foldlM_ub _ _ ?_ (x := A.level v) ?_ ?_ _
  · intro i _ f
    refine foldlM_no_div _ _ ?_ f
    intro node _ f h
    cases hh : (targetList A i).foldlM (fun (l : List Nat) t =>
        if 1 ≤ node ∨ 1 ≤ t then (.ub : Res (List Nat))
        else if H2Pack.Utils.checkBoxAdmissible (A.enbox node) (A.enbox t) ptDim H2Pack.Part.alphaH2 = false ∧
           H2Pack.Utils.checkBoxAdmissible (A.enbox node) (A.enbox t) ptDim H2Pack.Part.alphaHSS = true ∧ t ≠ node then
          if l.length < mx then .ok (l ++ [t]) else .ub
        else .ok l) [] with
    | ok a => rw [hh] at h; cases h
    | ub => rw [hh] at h; cases h
    | diverge => exact foldlM_no_div _ _ (hin node i) [] hh
  · rw [List.mem_reverse, List.mem_range'_1]
    have := T.levelLe v hv
    omega
  · intro f
    have hvm : v ∈ (List.range (A.levelN (A.level v))).map (fun j => A.levelNodes (A.level v * A.nLeaf + j)) := by
      rw [hmem, List.mem_filter]
      exact ⟨List.mem_range.2 hv, by simp⟩
    refine foldlM_ub _ _ ?_ (x := v) hvm ?_ f
    · intro node _ f h
      cases hh : (targetList A (A.level v)).foldlM (fun (l : List Nat) t =>
          if 1 ≤ node ∨ 1 ≤ t then (.ub : Res (List Nat))
          else if H2Pack.Utils.checkBoxAdmissible (A.enbox node) (A.enbox t) ptDim H2Pack.Part.alphaH2 = false ∧
             H2Pack.Utils.checkBoxAdmissible (A.enbox node) (A.enbox t) ptDim H2Pack.Part.alphaHSS = true ∧ t ≠ node then
            if l.length < mx then .ok (l ++ [t]) else .ub
          else .ok l) [] with
      | ok a => rw [hh] at h; cases h
      | ub => rw [hh] at h; cases h
      | diverge => exact foldlM_no_div _ _ (hin node _) [] hh
    · intro f
      have : (targetList A (A.level v)).foldlM (fun (l : List Nat) t =>
          if 1 ≤ v ∨ 1 ≤ t then (.ub : Res (List Nat))
          else if H2Pack.Utils.checkBoxAdmissible (A.enbox v) (A.enbox t) ptDim H2Pack.Part.alphaH2 = false ∧
             H2Pack.Utils.checkBoxAdmissible (A.enbox v) (A.enbox t) ptDim H2Pack.Part.alphaHSS = true ∧ t ≠ v then
            if l.length < mx then .ok (l ++ [t]) else .ub
          else .ok l) [] = .ub := by
        refine foldlM_ub _ _ (hin v _) (x := v) ?_ (fun s => if_pos (Or.inl h1)) []
        unfold targetList
        exact List.mem_append_left _ hvm
      rw [this]
      rfl

/-- In H2 mode (minimum level 0, as for a newly initialised structure) every tree with more than one node is affected. -/
theorem C30_box_overrun_h2 {A : Arr K} {n : Nat} (T : ClusterTree A n) (ptDim mx : Nat) (h : 2 ≤ A.nNode) : readerLists ptDim mx 0 A = .ub :=
  C30_box_overrun T ptDim mx 0 (v := A.nNode - 1) (by omega) (by omega) (Nat.zero_le _)

/-- In HSS mode (minimum level 1) every tree whose root has two children is affected. -/
theorem C30_box_overrun_hss {A : Arr K} {n : Nat} (T : ClusterTree A n) (ptDim mx : Nat) (h : 2 ≤ A.nChild (A.nNode - 1)) : readerLists ptDim mx 1 A = .ub := by
  have hr : A.nNode - 1 < A.nNode := by have := T.nonempty; omega
  have hlen : (kids A (A.nNode - 1)).length = A.nChild (A.nNode - 1) := by unfold kids; simp
  have hnd := T.kidsNodup _ hr
  have m0 := List.getElem_mem (show 0 < (kids A (A.nNode - 1)).length by omega)
  have m1 := List.getElem_mem (show 1 < (kids A (A.nNode - 1)).length by omega)
  have hne : (kids A (A.nNode - 1))[0] ≠ (kids A (A.nNode - 1))[1] := by
    intro e
    have := (List.Nodup.getElem_inj_iff hnd).1 e
    omega
  have key : ∀ c ∈ kids A (A.nNode - 1), 1 ≤ c → readerLists ptDim mx 1 A = .ub := by
    intro c hc h1
    have := T.childLt _ hr c hc
    have hlv := T.childLevel _ hr c hc
    exact C30_box_overrun T ptDim mx 1 (v := c) (by omega) h1 (by omega)
  rcases Nat.eq_zero_or_pos (kids A (A.nNode - 1))[0] with h0 | h0
  · exact key _ m1 (by omega)
  · exact key _ m0 h0

end

/-! ## A concrete case -/

/-- A number format for the six coordinates `c 0, ..., c 5`: bit patterns `2^60 + i`. -/
def demoFmt (c : Nat → ℚ) : Fmt ℚ where
  bits x := 2 ^ 60 + ((List.range 6).find? (fun i => c i = x)).getD 0
  val b := c (b - 2 ^ 60)
  e6 x := x

theorem demo_fmt (c : Nat → ℚ) (i : Nat) (hi : i < 6) : (demoFmt c).bits (c i) < 2 ^ 64 ∧ (demoFmt c).val ((demoFmt c).bits (c i)) = c i ∧ 2 ^ 60 ≤ (demoFmt c).bits (c i) := by
  unfold demoFmt
  dsimp only
  cases h : (List.range 6).find? (fun j => decide (c j = c i)) with
  | none =>
    rw [List.find?_eq_none] at h
    exact absurd (h i (List.mem_range.2 hi)) (by simp)
  | some j =>
    have h1 := List.mem_range.1 (List.mem_of_find?_eq_some h)
    have h2 := List.find?_some h
    simp only [Option.getD_some]
    refine ⟨by omega, ?_, by omega⟩
    rw [Nat.add_sub_cancel_left]
    simpa using h2

/-- The hypotheses of C30 and C31 are met: six points on a line, twelve nodes, seven admissible pairs, blocks stored. -/
theorem demo_stored : ∃ (F : Fmt ℚ) (H : Mtx ℚ), Storable H ∧ H.J.Ok ∧ Doubles F H ∧ Wide F H ∧ H.jit = false ∧ H.J.R.arr.nNode = 12 ∧ H.J.R.adm.length = 7 ∧
    H.J.R.inadm.length = 4 ∧ (demoEnv H.J.aot).Valid H.J.aot := by
  obtain ⟨R, pv, O, hn, hp, ha, hi, hm⟩ := line_build
  let J0 : JIT ℚ := { demoJIT R.arr 6 (fun i => R.coord i 0) pv.adm pv.inadm pv.minAdm 1 none with kern := fun p q a b => (p 0 - q 0) * (p 0 - q 0) + a + b }
  have hE : MetaEnv.Valid ⟨3, 2, 2, fun _ => 0, fun _ => 0, List.range 12⟩ R.arr.nNode := ⟨by show 1 ≤ 3; omega, by show (List.range 12).Perm (List.range R.arr.nNode); rw [hn]⟩
  obtain ⟨MB, MD, h1, h2, h3, h4⟩ := C45_h2_build J0 1 O.tree 30 (by show 2 * R.arr.nNode ≤ 30; omega) pv hp rfl rfl rfl (by rw [ha]; simp)
    (show 0 < 2 by omega) (demo_perm 6) (show 0 < 4 by omega) (fun v _ _ => Nat.one_pos) (fun v _ => rfl)
    (by
      intro v _ _ h0
      show (if R.arr.nChild v = 0 then _ else _) = _
      rw [if_pos (show R.arr.nChild v = 0 from h0)]; rfl)
    (by
      intro v _ _ h0
      show (if R.arr.nChild v = 0 then _ else _) = _
      rw [if_neg (show ¬ R.arr.nChild v = 0 from h0)]
      unfold off
      show R.arr.nChild v * (1 * 2) = ∑ _ ∈ Finset.range (R.arr.nChild v), 1 * 2
      simp)
    (by intro f hf; cases hf)
    (by
      intro _ v hv
      have h1 := O.tree.clusterLt v hv
      have h2 := O.tree.clusterLe v hv
      show ((R.arr.ptE v - R.arr.ptS v + 1) * 2 * 2 ≤ 16384) ∧ 1 * 2 * 2 ≤ 16384
      omega)
    (by intro s t a b; show (s 0 - t 0) * (s 0 - t 0) + (a : ℚ) + b = (t 0 - s 0) * (t 0 - s 0) + b + a; ring)
    ⟨3, 2, 2, fun _ => 0, fun _ => 0, List.range 12⟩ hE
  obtain ⟨w, hw⟩ := exists_interleaving 3 _ (worksB MB) rfl
  obtain ⟨w', hw'⟩ := exists_interleaving 3 _ (worksD R.arr.nLeaf MD) rfl
  let J := J0.withMark MB.nAdm
  have hc : ∀ i < 6, ∀ j < 1, J.coord (j * 6 + i) = R.coord i 0 := by
    intro i _ j hj
    rw [show j = 0 by omega, Nat.zero_mul, Nat.zero_add]; rfl
  refine ⟨demoFmt (fun i => R.coord i 0), ⟨J, 1, false, false, fun v => [R.arr.ptS v], MB, MD, runB J MB w (fun _ => 0), runD J MD w' (fun _ => 0), 1, 0⟩,
    ⟨h3.wf, O.maxChild, rfl, ?_, ?_, ?_, ?_, ?_⟩, h3, ?_, ?_, rfl, hn, ?_, ?_, demo_valid _⟩
  · show DistinctPairs R.arr.nNode pv.adm
    rw [ha, hn]; unfold DistinctPairs; decide
  · show DistinctPairs R.arr.nNode pv.inadm
    rw [hi, hn]; unfold DistinctPairs; decide
  · show pv.adm ≠ []; rw [ha]; simp
  · exact ⟨⟨3, 2, 2, fun _ => 0, fun _ => 0, List.range 12⟩, hE, h1, h2, fun _ => ⟨w, w', _, _, hw, rfl, hw', rfl⟩⟩
  · intro v hv
    refine ⟨rfl, ?_, ?_⟩
    · intro p hp
      rw [List.mem_singleton.1 hp]
      exact lt_of_le_of_lt (O.tree.clusterLe v hv) (O.tree.clusterLt v hv)
    · intro d hd k hk
      have hd : d < 1 := hd
      have hk : k < 1 := hk
      obtain rfl : d = 0 := by omega
      obtain rfl : k = 0 := by omega
      show R.coord (R.arr.ptS v + (0 * 1 + 0)) 0 = R.coord (0 * 6 + [R.arr.ptS v].getD 0 0) 0
      simp
  · intro i hi j hj
    have := demo_fmt (fun i => R.coord i 0) i hi
    have e := hc i hi j hj
    show (demoFmt _).bits (J.coord (j * 6 + i)) < _ ∧ (demoFmt _).val ((demoFmt _).bits (J.coord (j * 6 + i))) = J.coord (j * 6 + i)
    rw [e]; exact ⟨this.1, this.2.1⟩
  · intro i hi j hj
    have := demo_fmt (fun i => R.coord i 0) i hi
    have e := hc i hi j hj
    show _ ≤ (demoFmt _).bits (J.coord (j * 6 + i))
    rw [e]; exact this.2.2
  · show pv.adm.length = 7; rw [ha]; rfl
  · show pv.inadm.length = 4; rw [hi]; rfl

/-- `0.0` cannot be converted, `1.0 = 0x3ff0000000000000` can. -/
example : hexToDouble (hexDigits 0) = none ∧ hexToDouble (hexDigits 0x3ff0000000000000) = some 0x3ff0000000000000 := by
  constructor
  · rw [(C31_hex 0 (by norm_num)).2]; norm_num
  · rw [(C31_hex 0x3ff0000000000000 (by norm_num)).2]; norm_num

/-- The overrun occurs in the tree of the six points on a line. -/
example : ∃ A : Arr ℚ, ClusterTree A 6 ∧ A.nNode = 12 ∧ readerLists 1 3 0 A = .ub := by
  obtain ⟨R, pv, O, hn, _⟩ := line_build
  exact ⟨R.arr, O.tree, hn, C30_box_overrun_h2 O.tree 1 3 (by omega)⟩

/-- The matrix of the example is stored and loaded, with all products unchanged. -/
example : ∃ (F : Fmt ℚ) (H H' : Mtx ℚ), H.J.R.arr.nNode = 12 ∧ H.J.R.adm.length = 7 ∧ (demoEnv H.J.aot).Valid H.J.aot ∧
    ∀ (V' : Env ℚ), V'.Valid H'.J.R → ∀ x, ∀ k < H.J.R.nPoint * H.J.R.kdim,
      matvec H'.J.R V' (id, id) x x x k = matvec H.J.aot (demoEnv H.J.aot) (id, id) x x x k := by
  obtain ⟨F, H, h, _, hf, hw, _, hn, ha, _, hV⟩ := demo_stored
  obtain ⟨H', _, hm⟩ := C30_matvec_aot F 0 h hf hw (fun _ _ => 0) (fun _ _ => 0) (fun _ => 0) ⟨0, 0, 0, fun _ => 0⟩
    ⟨H.J.R.arr, fun _ => ⟨0, 0, fun _ _ => 0⟩, fun _ => 0, fun _ => 0, fun _ => 0, (fun _ => 0, fun _ => 0), ⟨fun _ => [], fun _ _ => 0⟩, fun _ => 0, fun _ => 0⟩
    ⟨4, H.J.kern, none, fun _ _ => 0, fun _ _ => 0⟩ ⟨1, 1, 1, fun _ => 0, fun _ => 0, List.range H.J.R.arr.nNode⟩ ⟨le_refl _, List.Perm.refl _⟩ (fun _ => 1)
    (fun _ _ _ => ⟨one_ne_zero, one_ne_zero⟩)
  exact ⟨F, H, H', hn, ha, hV, fun V' hV' x k hk => hm _ V' hV hV' _ _ _ _ _ _ x k hk⟩

end H2Pack.IO
