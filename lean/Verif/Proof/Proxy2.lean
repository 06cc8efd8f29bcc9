import Verif.Proof.Proxy1
import Verif.Props.Utils
import Verif.Props.Matvec
import Mathlib.Data.List.NodupEquivFin
import Mathlib.Data.List.GetD

/-! # Proxy points: what the selections represent -/

namespace H2Pack.Proxy
open H2Pack.ID H2Pack.MV Finset

theorem at'_mem {P : List Pt} {i : Nat} (hi : i < P.length) : at' P i ∈ P := by
  unfold at'
  rw [List.getD_eq_getElem _ _ hi]
  exact List.getElem_mem hi

theorem at'_of_mem {P : List Pt} {y : Pt} (h : y ∈ P) : ∃ i < P.length, at' P i = y := by
  obtain ⟨i, hi, rfl⟩ := List.getElem_of_mem h
  exact ⟨i, hi, by unfold at'; rw [List.getD_eq_getElem _ _ hi]⟩

theorem select_length (P : List Pt) (J : Nat → Nat) (len : Nat) : (select P J len).length = len := by simp [select]

theorem at'_select (P : List Pt) (J : Nat → Nat) (len i : Nat) (hi : i < len) : at' (select P J len) i = at' P (J i) := by
  have h : i < (select P J len).length := by rw [select_length]; exact hi
  rw [at', List.getD_eq_getElem _ _ h]
  simp [select]

theorem select_sublist (P : List Pt) (J : Nat → Nat) (len : Nat) (hinc : ∀ a b, a < b → b < len → J a < J b) (hr : ∀ i < len, J i < P.length) : (select P J len).Sublist P := by
  rw [List.sublist_iff_exists_fin_orderEmbedding_get_eq]
  have hl := select_length P J len
  refine ⟨OrderEmbedding.ofStrictMono (fun i => ⟨J i, hr i (by have := i.2; omega)⟩) ?_, ?_⟩
  · intro a b hab
    exact hinc a b hab (by have := b.2; omega)
  · intro i
    have hi : (i : Nat) < len := by have := i.2; omega
    have h1 := at'_select P J len i hi
    have h2 : at' P (J i) = P[J i]'(hr i hi) := by unfold at'; rw [List.getD_eq_getElem]
    have h3 : at' (select P J len) i = (select P J len)[(i : Nat)]'(i.2) := by unfold at'; rw [List.getD_eq_getElem]
    rw [List.get_eq_getElem, List.get_eq_getElem]
    rw [h3, h2] at h1
    exact h1

/-- The ID of a matrix of blocks selects points that represent all. -/
theorem represents_of_id {e f t : ℝ} (he : 0 ≤ e) {sz kdim ncol : Nat} (hk : 0 < kdim) (hdc : kdim ∣ ncol) {tol : ℝ} {A : Nat → Nat → ℝ} {E : IDEnv ℝ} {J : Nat → Nat} {len : Nat}
    {U : H2Pack.Dense.Mat ℝ} {P : List Pt} (hP : 1 ≤ P.length) {B : Pt → Nat → Nat → ℝ}
    (hA : ∀ i < P.length, ∀ a < kdim, ∀ j < ncol, A (i * kdim + a) j = B (at' P i) a j)
    (h : Returns (fun fuel => idCompress (realOps e f t) sz (P.length * kdim) ncol kdim (.rel tol) A true E fuel) ((J, len), U)) :
    Represents B kdim ncol (max (Real.sqrt ncol * e) (tol * Real.sqrt kdim)) P (select P J len) := by
  have hn : 1 ≤ P.length * kdim := Nat.mul_pos hP hk
  have hdiv : P.length * kdim / kdim = P.length := Nat.mul_div_cancel _ hk
  rcases C28_selection (realOps e f t) (fun a b => by show (if b = 0 then _ else _) ≠ _; split <;> simp) sz (P.length * kdim) ncol kdim hk hn (.rel tol) A E with ⟨F, hF⟩ | ⟨J', len', U', h', hs, _, hlc, _⟩
  · obtain ⟨F', hF'⟩ := h
    have h1 := hF (max F F') (le_max_left _ _)
    have h2 := hF' (max F F') (le_max_right _ _)
    rw [h1] at h2; simp at h2
  · have := returns_unique h h'
    simp only [Prod.mk.injEq] at this
    obtain ⟨⟨rfl, rfl⟩, rfl⟩ := this
    have hin : ∀ i < len, J i < P.length := fun i hi => by have := hs.inRange i hi; rwa [hdiv] at this
    have hskel : ∀ s < len, ∀ d < kdim, ∀ c < ncol, A (skel kdim J (s * kdim + d)) c = B (at' (select P J len) s) d c := by
      intro s hs' d hd c hc
      unfold skel
      rw [at'_select _ _ _ _ hs', show (s * kdim + d) / kdim = s by rw [mul_comm, Nat.mul_add_div hk, Nat.div_eq_of_lt hd, Nat.add_zero],
        show (s * kdim + d) % kdim = d by rw [mul_comm, Nat.mul_add_mod, Nat.mod_eq_of_lt hd], hA _ (hin s hs') d hd c hc]
    refine ⟨select_sublist P J len hs.increasing hin, ?_, ?_⟩
    · intro x hx s hs' d hd
      rw [select_length] at hs'
      have := C28_independent sz (P.length * kdim) ncol kdim hk hn (.rel tol) A E J len U h (fun i => x (i / kdim) (i % kdim)) (by
        intro c hc
        rw [sum_rows len kdim, ← hx c hc, select_length]
        apply sum_congr rfl; intro s hs'; rw [Finset.mem_range] at hs'
        apply sum_congr rfl; intro d hd; rw [Finset.mem_range] at hd
        rw [hskel s hs' d hd c hc, show (s * kdim + d) / kdim = s by rw [mul_comm, Nat.mul_add_div hk, Nat.div_eq_of_lt hd, Nat.add_zero],
          show (s * kdim + d) % kdim = d by rw [mul_comm, Nat.mul_add_mod, Nat.mod_eq_of_lt hd]]) (s * kdim + d) (by nlinarith)
      rwa [show (s * kdim + d) / kdim = s by rw [mul_comm, Nat.mul_add_div hk, Nat.div_eq_of_lt hd, Nat.add_zero],
          show (s * kdim + d) % kdim = d by rw [mul_comm, Nat.mul_add_mod, Nat.mod_eq_of_lt hd]] at this
    intro y hy
    obtain ⟨j, hj, rfl⟩ := at'_of_mem hy
    obtain ⟨i, hi, hb⟩ := C47_relative he sz (P.length * kdim) ncol kdim hk hn ⟨P.length, by ring⟩ hdc tol A E J len U h j (by rw [hdiv]; exact hj)
    rw [hdiv] at hi
    refine ⟨at' P i, at'_mem hi, fun a s d => U.entry (j * kdim + a) (s * kdim + d), ?_⟩
    have e1 : blockErr B kdim ncol (select P J len) (fun a s d => U.entry (j * kdim + a) (s * kdim + d)) (at' P j) =
        grpErr ncol kdim (len * kdim) A U.entry (skel kdim J) j := by
      unfold blockErr grpErr rowErr
      congr 1
      apply sum_congr rfl; intro a ha; rw [Finset.mem_range] at ha
      apply sum_congr rfl; intro c hc; rw [Finset.mem_range] at hc
      rw [hA j hj a ha c hc, sum_rows len kdim, select_length]
      congr 2
      apply sum_congr rfl; intro s hs'; rw [Finset.mem_range] at hs'
      apply sum_congr rfl; intro d hd; rw [Finset.mem_range] at hd
      rw [hskel s hs' d hd c hc]
    have e2 : blockNorm B kdim ncol (at' P i) = grpNorm ncol kdim A i := by
      unfold blockNorm grpNorm
      congr 1
      apply sum_congr rfl; intro a ha; rw [Finset.mem_range] at ha
      apply sum_congr rfl; intro c hc; rw [Finset.mem_range] at hc
      rw [hA i hi a ha c hc]
    rw [e1, e2]
    exact hb

/-- What the theorems ask of the arguments: exact arithmetic, the threads in some order, scalar kernels or one thread. -/
structure Fine (G : Gen) (e f t : ℝ) : Prop where
  ops : G.ops = realOps e f t
  eps : 0 ≤ e
  kdim : 0 < G.kdim
  thread : 1 ≤ G.nThread
  order : ∀ c, (G.ord c).Perm (List.range G.nThread)
  one : G.kdim = 1 ∨ G.nThread = 1

/-- The tolerance of a selection with `ncol` columns. -/
noncomputable def tauOf (G : Gen) (e : ℝ) (ncol : Nat) : ℝ := max (Real.sqrt ncol * e) (G.reltol / 100 * Real.sqrt G.kdim)

theorem evalK_spec {G : Gen} {e f t : ℝ} (hG : Fine G e f t) (c : Nat) (P Q : List Pt) : ∀ i < P.length, ∀ a < G.kdim, ∀ j < Q.length * G.kdim,
    evalK G c P Q (i * G.kdim + a) j = kblock G.kern G.kdim Q (at' P i) a j := by
  intro i hi a ha j hj
  unfold evalK
  rw [evalOMP_spec G.kern G.kdim hG.kdim (at' P) P.length (at' Q) Q.length G.nThread hG.thread hG.one (G.ord c) (hG.order c) (G.junk c) _ (by nlinarith) j hj]
  unfold kmat kblock
  rw [show (i * G.kdim + a) / G.kdim = i by rw [mul_comm, Nat.mul_add_div hG.kdim, Nat.div_eq_of_lt ha, Nat.add_zero],
    show (i * G.kdim + a) % G.kdim = a by rw [mul_comm, Nat.mul_add_mod, Nat.mod_eq_of_lt ha]]

theorem idSelect_spec {G : Gen} {e f t : ℝ} (hG : Fine G e f t) (c : Nat) (P Q : List Pt) (hP : 1 ≤ P.length) :
    Fails (fun fuel => idSelect G c P Q fuel) ∨ ∃ S, Returns (fun fuel => idSelect G c P Q fuel) S ∧
      Represents (kblock G.kern G.kdim Q) G.kdim (Q.length * G.kdim) (tauOf G e (Q.length * G.kdim)) P S := by
  rcases id_false (e := e) (f := f) (t := t) G.sz (P.length * G.kdim) (Q.length * G.kdim) G.kdim hG.kdim (Nat.mul_pos hP hG.kdim) (.rel (G.reltol / 100)) (evalK G c P Q) (G.env c)
    with ⟨F, hF⟩ | ⟨J, len, U, h1, F, hF⟩
  · left
    refine ⟨F, fun fuel hf => ?_⟩
    have := hF fuel hf
    dsimp only at this ⊢
    unfold idSelect
    rw [hG.ops, this, Res.bind_ub]
  · right
    refine ⟨select P J len, ⟨F, fun fuel hf => ?_⟩, ?_⟩
    · obtain ⟨r', e1, e2⟩ := hF fuel hf
      dsimp only
      unfold idSelect
      rw [hG.ops, e2, Res.bind_ok, e1]
    · exact represents_of_id hG.eps hG.kdim ⟨Q.length, by ring⟩ hP (evalK_spec hG c P Q) h1

theorem Represents.sublist {B : Pt → Nat → Nat → ℝ} {kdim ncol : Nat} {tau : ℝ} {P S : List Pt} (h : Represents B kdim ncol tau P S) : S.Sublist P := h.1

theorem byLayer_spec {G : Gen} {e f t : ℝ} (hG : Fine G e f t) (Q : List Pt) : ∀ (ls : List (List Pt)) (i : Nat) (Y : List Pt), (∀ l ∈ ls, 1 ≤ l.length) →
    Fails (fun fuel => byLayer G Q fuel ls i Y) ∨ ∃ Z, Returns (fun fuel => byLayer G Q fuel ls i Y) Z ∧
      Layered (kblock G.kern G.kdim Q) G.kdim (Q.length * G.kdim) (tauOf G e (Q.length * G.kdim)) ls Y Z := by
  intro ls
  induction ls with
  | nil => intro i Y _; exact Or.inr ⟨Y, ⟨0, fun _ _ => rfl⟩, .nil Y⟩
  | cons l ls ih =>
    intro i Y hl
    have hP : 1 ≤ (Y ++ l).length := by have := hl l (by simp); rw [List.length_append]; omega
    rcases idSelect_spec hG (i + 1) (Y ++ l) Q hP with ⟨F, hF⟩ | ⟨S, ⟨F, hF⟩, hS⟩
    · left
      refine ⟨F, fun fuel hf => ?_⟩
      have := hF fuel hf
      dsimp only at this ⊢
      rw [byLayer, this, Res.bind_ub]
    · have hstep : ∀ fuel ≥ F, byLayer G Q fuel (l :: ls) i Y = byLayer G Q fuel ls (i + 1) S := by
        intro fuel hf
        have := hF fuel hf
        dsimp only at this
        rw [byLayer, this, Res.bind_ok]
      rcases ih (i + 1) S (fun l hl' => hl l (List.mem_cons_of_mem _ hl')) with ⟨F', hF'⟩ | ⟨Z, ⟨F', hF'⟩, hZ⟩
      · exact Or.inl ⟨max F F', fun fuel hf => by
          dsimp only; rw [hstep fuel (le_trans (le_max_left _ _) hf)]; exact hF' fuel (le_trans (le_max_right _ _) hf)⟩
      · exact Or.inr ⟨Z, ⟨max F F', fun fuel hf => by
          dsimp only; rw [hstep fuel (le_trans (le_max_left _ _) hf)]; exact hF' fuel (le_trans (le_max_right _ _) hf)⟩, .cons hS hZ⟩

theorem Layered.sublist {B : Pt → Nat → Nat → ℝ} {kdim ncol : Nat} {tau : ℝ} {ls : List (List Pt)} {Y Z : List Pt} (h : Layered B kdim ncol tau ls Y Z) :
    Z.Sublist (Y ++ ls.flatten) := by
  induction h with
  | nil Y => simp
  | cons h _ ih =>
    refine ih.trans ?_
    rw [List.flatten_cons, ← List.append_assoc]
    exact h.1.append (List.Sublist.refl _)

/-! ## The skeleton points in X -/

theorem sparseCols_spec {rb : Nat → Nat} {k nz fr : Nat} : ∀ n t {l : List (List Nat)}, sparseCols rb k nz fr n t = .ok l →
    l.length = n ∧ ∀ j < n, (l.getD j []).length = nz ∧ (l.getD j []).Nodup ∧ ∀ x ∈ l.getD j [], x < k := by
  intro n
  induction n with
  | zero =>
    intro t l h
    rw [sparseCols, Res.ok.injEq] at h
    subst h
    exact ⟨rfl, fun j hj => by omega⟩
  | succ n ih =>
    intro t l h
    rw [sparseCols] at h
    cases ha : H2Pack.Utils.sampleLoop rb k fr nz (fun _ => false) t with
    | ub => rw [ha] at h; simp at h
    | diverge => rw [ha] at h; simp at h
    | ok a =>
      rw [ha, Res.bind_ok] at h
      cases hb : sparseCols rb k nz fr n a.2 with
      | ub => rw [hb] at h; simp at h
      | diverge => rw [hb] at h; simp at h
      | ok b =>
        rw [hb, Res.bind_ok, Res.ok.injEq] at h
        subst h
        obtain ⟨h1, h2⟩ := ih a.2 hb
        obtain ⟨s1, s2, s3⟩ := H2Pack.Utils.sampleLoop_ok (l := a.1) (t' := a.2) ha
        refine ⟨by simp [h1], fun j hj => ?_⟩
        cases j with
        | zero => exact ⟨s1, s2, fun x hx => (s3 x hx).1⟩
        | succ j => simpa using h2 j (by omega)

/-- The matrix of signs that the program multiplies with. -/
noncomputable def signMat (rb : Nat → Nat) (nz : Nat) (cols : List (List Nat)) (c j : Nat) : ℝ :=
  if c ∈ cols.getD j [] then sparseVal rb (j * nz + (cols.getD j []).idxOf c) else 0

theorem sparseVal_eq (rb : Nat → Nat) (l : Nat) : (sparseVal rb l : ℝ) = 1 ∨ (sparseVal rb l : ℝ) = -1 := by
  unfold sparseVal
  rcases Nat.mod_two_eq_zero_or_one (rb l) with h | h <;> rw [h]
  · right; norm_num
  · left; norm_num

theorem signMat_signs {rb : Nat → Nat} {k nz fr n t : Nat} {cols : List (List Nat)} (h : sparseCols rb k nz fr n t = .ok cols) : Signs k n nz (signMat rb nz cols) := by
  obtain ⟨_, h2⟩ := sparseCols_spec n t h
  intro j hj
  obtain ⟨s1, s2, s3⟩ := h2 j hj
  refine ⟨(cols.getD j []).toFinset, fun x hx => Finset.mem_range.2 (s3 x (List.mem_toFinset.1 hx)), by rw [List.toFinset_card_of_nodup s2, s1], fun c => ?_⟩
  rw [List.mem_toFinset]
  unfold signMat
  exact ⟨fun hc => by rw [if_pos hc]; exact sparseVal_eq _ _, fun hc => by rw [if_neg hc]⟩

theorem foldl_sum (n : Nat) (g : Nat → ℝ) : (List.range n).foldl (fun r l => r + g l) 0 = ∑ l ∈ range n, g l := by
  induction n with
  | zero => simp
  | succ n ih => rw [List.range_succ, List.foldl_append, ih, Finset.sum_range_succ]; rfl

theorem sparseMM_eq {rb : Nat → Nat} {k nz fr n t : Nat} {cols : List (List Nat)} (h : sparseCols rb k nz fr n t = .ok cols) (x : Nat → Nat → ℝ) (i j : Nat) (hj : j < n) :
    sparseMM rb nz cols x i j = ∑ c ∈ range k, x i c * signMat rb nz cols c j := by
  obtain ⟨_, h2⟩ := sparseCols_spec n t h
  obtain ⟨s1, s2, s3⟩ := h2 j hj
  unfold sparseMM signMat
  rw [foldl_sum]
  simp only [mul_ite, mul_zero]
  rw [← Finset.sum_filter]
  symm
  refine Finset.sum_bij' (fun c _ => (cols.getD j []).idxOf c) (fun l _ => (cols.getD j []).getD l 0) ?_ ?_ ?_ ?_ ?_
  · intro c hc
    rw [Finset.mem_filter] at hc
    rw [Finset.mem_range, ← s1]
    exact List.idxOf_lt_length_of_mem hc.2
  · intro l hl
    rw [Finset.mem_range] at hl
    have hm : (cols.getD j []).getD l 0 ∈ cols.getD j [] := by rw [List.getD_eq_getElem (cols.getD j []) 0 (by omega)]; exact List.getElem_mem _
    rw [Finset.mem_filter, Finset.mem_range]
    exact ⟨s3 _ hm, hm⟩
  · intro c hc
    rw [Finset.mem_filter] at hc
    have := List.idxOf_lt_length_of_mem hc.2
    rw [List.getD_eq_getElem _ _ this, List.getElem_idxOf]
  · intro l hl
    rw [Finset.mem_range] at hl
    rw [List.getD_eq_getElem _ _ (by omega)]
    exact s2.idxOf_getElem _ _
  · intro c hc
    rw [Finset.mem_filter] at hc
    have := List.idxOf_lt_length_of_mem hc.2
    rw [List.getD_eq_getElem (cols.getD j []) 0 this, List.getElem_idxOf, mul_comm]

theorem skelX_spec {G : Gen} {e f t : ℝ} (hG : Fine G e f t) (X0 Y0 : List Pt) (hX : 1 ≤ X0.length) (fr : Nat) :
    (∃ r : Res (List Pt), (r = .ub ∨ r = .diverge) ∧ ∃ F, ∀ fuel ≥ F, skelX G X0 Y0 fr fuel = r) ∨ ∃ Xp S, Returns (fun fuel => skelX G X0 Y0 fr fuel) Xp ∧
      Signs (Y0.length * G.kdim) (X0.length * G.kdim) (min 32 (Y0.length * G.kdim)) S ∧
      Represents (sketch (kblock G.kern G.kdim Y0) (Y0.length * G.kdim) S) G.kdim (X0.length * G.kdim) (tauOf G e (X0.length * G.kdim)) X0 Xp := by
  cases hc : sparseCols G.rb (Y0.length * G.kdim) (min 32 (Y0.length * G.kdim)) fr (X0.length * G.kdim) (X0.length * G.kdim * min 32 (Y0.length * G.kdim)) with
  | ub =>
    left
    refine ⟨.ub, Or.inl rfl, 0, fun fuel _ => ?_⟩
    unfold skelX
    dsimp only
    rw [hc, Res.bind_ub]
  | diverge =>
    left
    refine ⟨.diverge, Or.inr rfl, 0, fun fuel _ => ?_⟩
    unfold skelX
    dsimp only
    rw [hc]; rfl
  | ok cols =>
    have hrun : ∀ fuel, skelX G X0 Y0 fr fuel = idCompress G.ops G.sz (X0.length * G.kdim) (X0.length * G.kdim) G.kdim (.rel (G.reltol / 100))
        (sparseMM G.rb (min 32 (Y0.length * G.kdim)) cols (evalK G 0 X0 Y0)) false (G.env 0) fuel >>= fun r => Res.ok (select X0 r.1.1 r.1.2) := by
      intro fuel
      unfold skelX
      dsimp only
      rw [hc, Res.bind_ok]
    rcases id_false (e := e) (f := f) (t := t) G.sz (X0.length * G.kdim) (X0.length * G.kdim) G.kdim hG.kdim (Nat.mul_pos hX hG.kdim) (.rel (G.reltol / 100))
      (sparseMM G.rb (min 32 (Y0.length * G.kdim)) cols (evalK G 0 X0 Y0)) (G.env 0) with ⟨F, hF⟩ | ⟨J, len, U, h1, F, hF⟩
    · left
      refine ⟨.ub, Or.inl rfl, F, fun fuel hf => ?_⟩
      have := hF fuel hf
      dsimp only at this
      rw [hrun, hG.ops, this, Res.bind_ub]
    · right
      refine ⟨select X0 J len, _, ⟨F, fun fuel hf => ?_⟩, signMat_signs hc, ?_⟩
      · obtain ⟨r', e1, e2⟩ := hF fuel hf
        dsimp only
        rw [hrun, hG.ops, e2, Res.bind_ok, e1]
      · refine represents_of_id hG.eps hG.kdim ⟨X0.length, by ring⟩ hX ?_ h1
        intro i hi a ha j hj
        rw [sparseMM_eq hc _ _ _ hj]
        unfold sketch
        apply sum_congr rfl; intro c hc'; rw [Finset.mem_range] at hc'
        rw [evalK_spec hG 0 X0 Y0 i hi a ha c hc']

end H2Pack.Proxy
