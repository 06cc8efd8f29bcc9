import Verif.Proof.FileIO6
import Verif.Spec.Stored

set_option linter.unusedSectionVars false

/-! # The loaded matrix -/

namespace H2Pack.IO
open H2Pack.MV
open H2Pack.Part (Arr kids ClusterTree)
open Finset

section
variable {K : Type} [CommRing K]

theorem exists_interleaving {β : Type} (n : Nat) : ∀ (m : Nat) (qs : Nat → List β), (∑ t ∈ range n, (qs t).length) = m → ∃ w, H2Pack.Utils.Interleaving n qs w := by
  intro m
  induction m with
  | zero =>
    intro qs h
    refine ⟨[], .done qs (fun t ht => ?_)⟩
    have := (Finset.sum_eq_zero_iff.1 h) t (mem_range.2 ht)
    exact List.length_eq_zero_iff.1 this
  | succ m ih =>
    intro qs h
    have : ∃ t < n, qs t ≠ [] := by
      by_contra hc
      push Not at hc
      rw [Finset.sum_eq_zero (fun t ht => by rw [hc t (mem_range.1 ht)]; rfl)] at h
      omega
    obtain ⟨t, ht, hq⟩ := this
    obtain ⟨x, rest, hx⟩ := List.exists_cons_of_ne_nil hq
    have hs : ∑ t' ∈ range n, (Function.update qs t rest t').length = m := by
      have e1 := Finset.sum_erase_add (range n) (fun t' => (Function.update qs t rest t').length) (mem_range.2 ht)
      have e2 := Finset.sum_erase_add (range n) (fun t' => (qs t').length) (mem_range.2 ht)
      have e3 : ∑ t' ∈ (range n).erase t, (Function.update qs t rest t').length = ∑ t' ∈ (range n).erase t, (qs t').length :=
        Finset.sum_congr rfl (fun t' h' => by rw [Function.update_of_ne (Finset.ne_of_mem_erase h')])
      simp only [Function.update_self] at e1
      rw [hx] at e2
      simp only [List.length_cons] at e2
      omega
    obtain ⟨w, hw⟩ := ih _ hs
    exact ⟨x :: w, .step qs t x rest w ht hx hw⟩

theorem returns_unique {α : Type} {p : Nat → Res α} {a b : α} (ha : Returns p a) (hb : Returns p b) : a = b := by
  obtain ⟨A, hA⟩ := ha
  obtain ⟨B, hB⟩ := hb
  have h1 := hA (max A B) (by omega)
  rw [hB (max A B) (by omega)] at h1
  exact (Res.ok.inj h1).symm

theorem Storable.tree {H : Mtx K} (h : Storable H) : ClusterTree H.J.R.arr H.J.R.nPoint := h.wf.tree

theorem Storable.lookups {H : Mtx K} (h : Storable H) : Lookups H := by
  obtain ⟨E, hE, hB, hD, hdat⟩ := h.built
  obtain ⟨l1, l2, l3⟩ := H2Pack.Part.leaf_inj h.tree
  obtain ⟨M, hM, gB⟩ := C27_get_Bij H.J E hE h.adm h.some
  obtain ⟨M', hM', gD⟩ := C27_get_Dij H.J E hE (fun i hi => (l2 i hi).1) l3 l1 h.inadm
  have e1 := returns_unique hM hB
  have e2 := returns_unique hM' hD
  subst e1 e2
  have hgB : ∀ i (hi : i < H.J.R.adm.length), ∀ g, IsBlock (getBij H.J H.MB H.jit H.bData g H.J.R.adm[i].1 H.J.R.adm[i].2) (H.J.aot.B i) false := by
    intro i hi g
    cases hj : H.jit with
    | false =>
      obtain ⟨w, _, d, _, hw, hb, _, _⟩ := hdat hj
      rw [hb]
      exact ((gB w hw d g false).1 i hi).1
    | true =>
      obtain ⟨w, hw⟩ := exists_interleaving E.nTask _ (worksB H.MB) rfl
      exact ((gB w hw (fun _ => 0) g true).1 i hi).1
  have hgD : ∀ g, (∀ i < H.J.R.arr.nLeaf, IsBlock (getDij H.J H.MD H.jit H.dData g (H.J.R.leaf i) (H.J.R.leaf i)) (H.J.aot.D i) false) ∧
      (∀ i (hi : i < H.J.R.inadm.length), IsBlock (getDij H.J H.MD H.jit H.dData g H.J.R.inadm[i].1 H.J.R.inadm[i].2) (H.J.aot.D (H.J.R.arr.nLeaf + i)) false) := by
    intro g
    cases hj : H.jit with
    | false =>
      obtain ⟨_, w, _, d, _, _, hw, hb⟩ := hdat hj
      rw [hb]
      have := gD w hw d g false
      exact ⟨this.1, fun i hi => (this.2.1 i hi).1⟩
    | true =>
      obtain ⟨w, hw⟩ := exists_interleaving E.nTask _ (worksD H.J.R.arr.nLeaf H.MD) rfl
      have := gD w hw (fun _ => 0) g true
      exact ⟨this.1, fun i hi => (this.2.1 i hi).1⟩
  constructor
  · intro i hi g
    have := hgB i hi g
    rw [show H.J.R.adm.getD i (0, 0) = H.J.R.adm[i] by simp [hi]]
    exact this
  · intro k hk g
    unfold dPair
    by_cases c : k < H.J.R.arr.nLeaf
    · rw [if_pos c]; exact (hgD g).1 k c
    · rw [if_neg c]
      have hi : k - H.J.R.arr.nLeaf < H.J.R.inadm.length := by omega
      have := (hgD g).2 _ hi
      rw [show H.J.R.inadm.getD (k - H.J.R.arr.nLeaf) (0, 0) = H.J.R.inadm[k - H.J.R.arr.nLeaf] by simp [hi]]
      rw [show H.J.R.arr.nLeaf + (k - H.J.R.arr.nLeaf) = k by omega] at this
      exact this

theorem sameTree_of_raw {F : Fmt K} {H : Mtx K} {c : Nat → K} {tol : K} {jm : Bool} {Q : Raw K} (h : RawOk F H c tol jm Q) (T : ClusterTree H.J.R.arr H.J.R.nPoint) :
    SameTree H.J.R Q.R := by
  have hnl : Q.R.arr.nLeaf = H.J.R.arr.nLeaf := by rw [h.nodes.nLeaf, ← T.nLeaf]
  refine ⟨h.nodes.nNode, hnl, h.nodes.maxLevel, h.nodes.maxChild, h.nodes.level, h.nodes.ptS, h.nodes.ptE, h.nodes.nChild, h.nodes.children, ?_, ?_, h.leaf,
    h.nPoint, h.kdim, h.idx, h.U, h.adm, h.inadm, h.minAdm⟩
  · intro v hv
    obtain ⟨p, hp, e, hk⟩ := T.childOfParent v hv
    rw [h.nodes.parent p hp v hk, e]
  · intro l
    unfold Rep.levelList
    rw [hnl, h.levels l]
    exact (T.levelList l).symm

/-- `storedBlk` of the data that have been read. -/
theorem storedBlk_same {n : Nat} {f : Nat → Mat K} {M : Meta} {d : Nat → K} (hS : Stored n f M)
    (hd : ∀ i < n, ∀ k < (f i).nrow * (f i).ncol, d (M.ptr i + k) = (f i).e (k / (f i).ncol) (k % (f i).ncol)) :
    ∀ i < n, SameMat (f i) (storedBlk M d i) := by
  intro i hi
  refine ⟨hS.nrow i hi, hS.ncol i hi, fun r hr c hc => ?_⟩
  unfold storedBlk
  dsimp only
  rw [hS.ncol i hi, hd i hi _ ?_, (div_mod_row hc).1, (div_mod_row hc).2]
  have := Nat.mul_le_mul_right (f i).ncol (show r + 1 ≤ (f i).nrow by omega)
  rw [Nat.add_mul] at this
  omega

/-- Everything about a successful round trip. -/
theorem storeLoad_ok (F : Fmt K) (zero : K) {H : Mtx K} (h : Storable H) (hf : Doubles F H) (hw : Wide F H) (gB gD : Nat → Nat → K) (c0 : Nat → K)
    (tmp : Blk K) (jit : Bool) (G : Fresh K) (u : User K) (E : MetaEnv) (hE : E.Valid H.J.R.arr.nNode) (marks : Nat → Nat) :
    ∃ H' : Mtx K, (∃ N, ∀ fuel ≥ N, storeLoad F zero H gB gD c0 tmp jit G u E marks fuel = some (.ok H')) ∧
      SameTree H.J.R H'.J.R ∧ SameData H H' ∧ (jit = false → SameBlocks H.J.aot H'.J.R) ∧ H'.jit = jit ∧
      Returns (generateB H.J false E) H'.MB ∧ Returns (generateD H.J false E) H'.MD ∧
      H'.J.R.mark = (if H.isHSS then marks else H'.MB.nAdm) ∧ (H.isHSS = false → Marked H'.J.R) ∧
      H'.J.xdim = H.J.xdim ∧ H'.J.simd = u.simd ∧ H'.J.kern = u.kern ∧ H'.J.bimv = u.bimv ∧ H'.tol = F.e6 (F.e6 H.tol) := by
  have T := h.tree
  have hl := T.nLeaf
  have hp : ((List.range H.J.R.nPoint).map H.J.R.coordIdx).Perm (List.range H.J.R.nPoint) := h.wf.perm
  set c := origCoord H.J.R.nPoint H.ptDim H.J.R.coordIdx H.J.coord c0 with hc
  have hco : ∀ i < H.J.R.nPoint, ∀ j < H.ptDim, c (H.J.R.coordIdx i * H.ptDim + j) = H.J.coord (j * H.J.R.nPoint + i) :=
    origCoord_eq (fun i hi j hj e => perm_inj hp hi hj e) H.J.coord c0
  have hst := store_eq F h.lookups (by have := h.dims; omega) gB gD c0 tmp
  have hj : txtToJson (txt F H c (F.e6 H.tol)) = some (metaJ H, auxJ F H c (F.e6 H.tol)) := by
    apply (txtToJson_txt F H c (F.e6 H.tol) hl).1
    intro i hi j hj
    obtain ⟨p, hp', rfl⟩ := perm_surj hp hi
    rw [hco p hp' j hj]
    exact ⟨(hf p hp' j hj).1, hw p hp' j hj⟩
  have ht := jsonToTxt_eq F zero H c (F.e6 H.tol) h.width hl
  obtain ⟨Q, hQ, ok⟩ := readFile_feeds F zero jit G H c (F.e6 (F.e6 H.tol)) T h.width (fun i hi => perm_lt hp hi)
  obtain ⟨r, hr⟩ := bin_split H.J jit
  have hrun : (readFile F zero jit G).run ((txt F H c (F.e6 (F.e6 H.tol))).flatten, bin H.J) = some (Q, ([], r)) := by
    have := hQ [] r
    rw [List.append_nil, ← hr] at this
    exact this
  obtain ⟨l1, l2, l3⟩ := H2Pack.Part.leaf_inj T
  obtain ⟨MB, hMB, hSB, _, _, _, hAdm, _⟩ := C27_B_metadata H.J E hE h.adm h.some
  obtain ⟨MD, hMD, hSD, _⟩ := C27_D_metadata H.J E hE (fun i hi => (l2 i hi).1) l3 l1 h.inadm
  have hst' := sameTree_of_raw ok T
  have hH : (decide (Q.isHSS = 1)) = H.isHSS := by rw [ok.isHSS]; cases H.isHSS <;> simp
  have hcoord : ∀ i < H.J.R.nPoint, ∀ j < H.ptDim, Q.coord (j * H.J.R.nPoint + i) = H.J.coord (j * H.J.R.nPoint + i) := by
    intro i hi j hj
    rw [(ok.coord i hi j hj).1, hco i hi j hj]
    exact (hf i hi j hj).2
  set H' : Mtx K := ⟨⟨{ Q.R with B := storedBlk MB Q.bData, D := storedBlk MD Q.dData, mark := if Q.isHSS = 1 then marks else MB.nAdm },
      u.simd, Q.ptDim, u.kern, u.bimv, Q.coord, fun v => (Q.skel.idx v).length, Q.skel.jc, u.junkM, u.junkW⟩,
    Q.ptDim, decide (Q.isHSS = 1), Q.jit, Q.skel.idx, MB, MD, Q.bData, Q.dData, Q.maxLeaf, Q.tol⟩ with hH'
  have hmark : H'.J.R.mark = if H.isHSS then marks else MB.nAdm := by
    show (if Q.isHSS = 1 then marks else MB.nAdm) = _
    rw [ok.isHSS]; cases H.isHSS <;> simp
  refine ⟨H', ?_, ⟨hst'.nNode, hst'.nLeaf, hst'.maxLevel, hst'.maxChild, hst'.level, hst'.ptS, hst'.ptE, hst'.nChild, hst'.children, hst'.parent, hst'.levels, hst'.leaf,
    hst'.nPoint, hst'.kdim, hst'.idx, hst'.U, hst'.adm, hst'.inadm, hst'.minAdm⟩, ?_, ?_, ok.jit, hMB, hMD, hmark, ?_, by rw [h.dims]; exact ok.ptDim, rfl, rfl, rfl, ok.tol⟩
  · obtain ⟨N1, h1⟩ := hMB
    obtain ⟨N2, h2⟩ := hMD
    refine ⟨max N1 N2, fun fuel hfu => ?_⟩
    unfold storeLoad
    rw [hst, obind]
    dsimp only
    rw [hj, obind]
    dsimp only
    rw [ht, obind]
    unfold load
    rw [hrun]
    dsimp only
    unfold finish
    rw [finishB_eq ok, finishD_eq ok hl, h1 fuel (by omega), h2 fuel (by omega)]
    rfl
  · refine ⟨ok.ptDim, hH, ok.maxLeaf, hcoord, fun v hv => (ok.skel v hv).1, ?_, ?_⟩
    · intro v hv
      show (Q.skel.idx v).length = _
      rw [(ok.skel v hv).1]; exact (h.skel v hv).1
    · intro v hv d hd k hk
      obtain ⟨s1, s2, s3⟩ := h.skel v hv
      show Q.skel.jc v _ = _
      rw [s3 d hd k hk, ← s1, (ok.skel v hv).2 d k (by omega)]
      have hk' : k < (H.skel v).length := by omega
      have : (H.skel v).getD k 0 < H.J.R.nPoint := by
        rw [show (H.skel v).getD k 0 = (H.skel v)[k] by simp [List.getD, hk']]
        exact s2 _ (List.getElem_mem hk')
      exact hcoord _ this d hd
  · intro hjf
    exact ⟨storedBlk_same hSB (ok.bData hjf MB.ptr hSB.start hSB.next), storedBlk_same hSD (ok.dData hjf MD.ptr hSD.start hSD.next)⟩
  · intro hh x hx
    have hx : x ∈ H.J.R.adm := by rw [← ok.adm]; exact hx
    rw [hmark, hh]
    have h1 : MB.nAdm x.1 ≠ 0 := by
      rw [hAdm]
      have : 0 < H.J.R.adm.countP (fun y => y.1 = x.1) := List.countP_pos_iff.2 ⟨x, hx, by simp⟩
      omega
    have h2 : MB.nAdm x.2 ≠ 0 := by
      rw [hAdm]
      have : 0 < H.J.R.adm.countP (fun y => y.2 = x.2) := List.countP_pos_iff.2 ⟨x, hx, by simp⟩
      omega
    exact ⟨fun _ => by simpa using h1, fun _ => by simpa using h2⟩

end

end H2Pack.IO
