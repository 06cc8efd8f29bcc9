import Verif.Proof.Proxy3

/-!
# C74: the proxy points of H2P_generate_proxy_point_nlayer

`Fine G e f t`: exact arithmetic with the constants of the ID, at least one thread, the threads write in some order, and the kernel is scalar or there is one thread
(`C74_rows_missing`: with more threads the kernel matrix of a vector kernel is not computed).  `tauOf G e ncol = max (√ncol·e) (reltol/100·√kdim)`.
-/

namespace H2Pack.Proxy
open H2Pack.ID H2Pack.MV Finset

theorem bind_ok' {α β : Type} {p : Res α} {g : α → Res β} {b : β} (h : p >>= g = .ok b) : ∃ a, p = .ok a ∧ g a = .ok b := by
  cases p with
  | ok a => exact ⟨a, rfl, h⟩
  | ub => simp at h
  | diverge => simp at h

/-- C74: what a result of the program is.  `X0` are the candidates in the box `L1`, `Xp` the ones that represent the others when the kernel matrix with the candidates in Y
is multiplied by a sparse random matrix of signs, `layers` the candidates in Y, `Yp` the ones that represent the others in the kernel matrix with `Xp`. -/
theorem C74_proxy {G : Gen} {e f t : ℝ} (hG : Fine G e f t) (hX : 1 ≤ G.nX) (hY : 1 ≤ G.nY) (h23 : G.L2 ≤ G.L3) (hl : 1 ≤ nLayer G) (fr : Nat) (pp : List Pt)
    (h : Returns (fun fuel => nlayer G fr fuel) pp) :
    ∃ X0 Xp Yp layers S, X0.length = G.nX ∧ (∀ x ∈ X0, InBox G.dim G.L1 x) ∧
      layers.length = (nLayer G).toNat ∧ (∀ P ∈ layers, P.length = G.nY ∧ ∀ x ∈ P, InBox G.dim G.L3 x ∧ ¬ InBox G.dim G.L2 x) ∧
      Signs (layers.flatten.length * G.kdim) (G.nX * G.kdim) (min 32 (layers.flatten.length * G.kdim)) S ∧
      Represents (sketch (kblock G.kern G.kdim layers.flatten) (layers.flatten.length * G.kdim) S) G.kdim (G.nX * G.kdim) (tauOf G e (G.nX * G.kdim)) X0 Xp ∧
      (G.alg ≠ 2 → Represents (kblock G.kern G.kdim Xp) G.kdim (Xp.length * G.kdim) (tauOf G e (Xp.length * G.kdim)) layers.flatten Yp) ∧
      (G.alg = 2 → Layered (kblock G.kern G.kdim Xp) G.kdim (Xp.length * G.kdim) (tauOf G e (Xp.length * G.kdim)) layers [] Yp) ∧
      (1 / 10 ^ 12 ≤ G.reltol → pp = Yp) ∧ (G.reltol < 1 / 10 ^ 12 → Doubled G.dim G.L2 G.L3 Yp pp) := by
  obtain ⟨F, hF⟩ := h
  have h0 := hF F (le_refl _)
  dsimp only at h0
  unfold nlayer at h0
  obtain ⟨X0, hX0, h0⟩ := bind_ok' h0
  obtain ⟨Y0, hY0, h0⟩ := bind_ok' h0
  clear h0
  obtain ⟨x1, x2⟩ := genRing_spec G.nX 0 (l := X0.1) (t' := X0.2) hX0
  obtain ⟨y1, y2⟩ := genLayers_spec h23 (nLayer G).toNat 0 X0.2 (l := Y0.1) (t' := Y0.2) (by omega) hY0
  have hrun : ∀ fuel, nlayer G fr fuel = skelX G X0.1 Y0.1.flatten fr fuel >>= fun Xp => selectY G Y0.1 Xp fuel >>= fun Yp =>
      if 1 / 10 ^ 12 ≤ G.reltol then .ok Yp else densify G (minDist G.dim Yp) fr Yp 0 Y0.2 := by
    intro fuel
    unfold nlayer
    rw [hX0, Res.bind_ok, hY0, Res.bind_ok]
  have hXl : 1 ≤ X0.1.length := by omega
  rcases skelX_spec hG X0.1 Y0.1.flatten hXl fr with ⟨r, hr, F1, hF1⟩ | ⟨Xp, S, ⟨F1, hF1⟩, hS, hXp⟩
  · exfalso
    have h1 := hF (max F F1) (le_max_left _ _)
    dsimp only at h1
    rw [hrun, hF1 _ (le_max_right _ _)] at h1
    rcases hr with rfl | rfl <;> simp at h1
  · rw [x1] at hXp hS
    have hsel : Fails (fun fuel => selectY G Y0.1 Xp fuel) ∨ ∃ Yp, Returns (fun fuel => selectY G Y0.1 Xp fuel) Yp ∧
        (G.alg ≠ 2 → Represents (kblock G.kern G.kdim Xp) G.kdim (Xp.length * G.kdim) (tauOf G e (Xp.length * G.kdim)) Y0.1.flatten Yp) ∧
        (G.alg = 2 → Layered (kblock G.kern G.kdim Xp) G.kdim (Xp.length * G.kdim) (tauOf G e (Xp.length * G.kdim)) Y0.1 [] Yp) := by
      unfold selectY
      by_cases h01 : G.alg = 0 ∨ G.alg = 1
      · simp only [if_pos h01]
        have hne : 1 ≤ Y0.1.flatten.length := by
          cases hc : Y0.1 with
          | nil => rw [hc] at y1; simp at y1; omega
          | cons P ls =>
            have := (y2 P (by rw [hc]; simp)).1
            rw [List.flatten_cons, List.length_append]; omega
        rcases idSelect_spec hG 1 Y0.1.flatten Xp hne with h | ⟨Yp, h1, h2⟩
        · exact Or.inl h
        · exact Or.inr ⟨Yp, h1, fun _ => h2, fun h => by omega⟩
      · simp only [if_neg h01]
        by_cases h2 : G.alg = 2
        · simp only [if_pos h2]
          rcases byLayer_spec hG Xp Y0.1 0 [] (fun l hl' => by have := (y2 l hl').1; omega) with h | ⟨Yp, h1, h3⟩
          · exact Or.inl h
          · exact Or.inr ⟨Yp, h1, fun h => absurd h2 h, fun _ => h3⟩
        · simp only [if_neg h2]
          exact Or.inl ⟨0, fun _ _ => rfl⟩
    rcases hsel with ⟨F2, hF2⟩ | ⟨Yp, ⟨F2, hF2⟩, hY1, hY2⟩
    · exfalso
      have h1 := hF (max F (max F1 F2)) (by omega)
      have h2 := hF1 (max F (max F1 F2)) (by omega)
      have h3 := hF2 (max F (max F1 F2)) (by omega)
      dsimp only at h1 h2 h3
      rw [hrun, h2, Res.bind_ok, h3] at h1
      simp at h1
    · have h1 := hF (max F (max F1 F2)) (by omega)
      have h2 := hF1 (max F (max F1 F2)) (by omega)
      have h3 := hF2 (max F (max F1 F2)) (by omega)
      dsimp only at h1 h2 h3
      rw [hrun, h2, Res.bind_ok, h3, Res.bind_ok] at h1
      refine ⟨X0.1, Xp, Yp, Y0.1, S, x1, fun x hx => (x2 x hx).1, y1, y2, hS, hXp, hY1, hY2, fun hr => ?_, fun hr => ?_⟩
      · rw [if_pos hr, Res.ok.injEq] at h1; exact h1.symm
      · rw [if_neg (by linarith)] at h1; exact doubled h1

/-- C74: all proxy points lie in the ring between the boxes of widths `L2` and `L3`. -/
theorem C74_ring {G : Gen} {e f t : ℝ} (hG : Fine G e f t) (hX : 1 ≤ G.nX) (hY : 1 ≤ G.nY) (h23 : G.L2 ≤ G.L3) (hl : 1 ≤ nLayer G) (fr : Nat) (pp : List Pt)
    (h : Returns (fun fuel => nlayer G fr fuel) pp) : ∀ x ∈ pp, InBox G.dim G.L3 x ∧ ¬ InBox G.dim G.L2 x := by
  obtain ⟨X0, Xp, Yp, layers, S, _, _, _, hl2, _, _, r1, r2, d1, d2⟩ := C74_proxy hG hX hY h23 hl fr pp h
  have hYp : ∀ x ∈ Yp, InBox G.dim G.L3 x ∧ ¬ InBox G.dim G.L2 x := by
    have hsub : Yp.Sublist layers.flatten := by
      by_cases ha : G.alg = 2
      · simpa using (r2 ha).sublist
      · exact (r1 ha).sublist
    intro x hx
    obtain ⟨P, hP, hxP⟩ := List.mem_flatten.1 (hsub.subset hx)
    exact (hl2 P hP).2 x hxP
  by_cases hr : 1 / 10 ^ 12 ≤ G.reltol
  · rw [d1 hr]; exact hYp
  · obtain ⟨q1, q2⟩ := d2 (not_le.1 hr)
    intro x hx
    obtain ⟨k, hk, rfl⟩ := at'_of_mem hx
    rcases Nat.even_or_odd' k with ⟨i, rfl | rfl⟩
    · rw [(q2 i (by omega)).1]; exact hYp _ (at'_mem (by omega))
    · exact ⟨(q2 i (by omega)).2.1, (q2 i (by omega)).2.2.1⟩

/-- C74: with `reltol < 1e-12` a single selected point has no distance to another one (`min_dist` stays `1e99`), and the loop that looks for a second point near to it
does not end. -/
theorem C74_hang {G : Gen} {e f t : ℝ} (hG : Fine G e f t) (hX : 1 ≤ G.nX) (hY : 1 ≤ G.nY) (h23 : G.L2 ≤ G.L3) (hl : 1 ≤ nLayer G) (hd : G.dim ≤ 8)
    (h0 : 0 ≤ G.L3) (hL : G.L3 ≤ 10 ^ 98) (ht : G.reltol < 1 / 10 ^ 12) (fr : Nat) (pp : List Pt) (h : Returns (fun fuel => nlayer G fr fuel) pp) : pp.length ≠ 2 := by
  intro h2
  have hring := C74_ring hG hX hY h23 hl fr pp h
  obtain ⟨X0, Xp, Yp, layers, S, _, _, _, hl2, _, _, r1, r2, d1, d2⟩ := C74_proxy hG hX hY h23 hl fr pp h
  obtain ⟨q1, q2⟩ := d2 ht
  have hlen : Yp.length = 1 := by omega
  obtain ⟨a1, a2, a3, m, b1, b2, b3⟩ := q2 0 (by omega)
  have hm : m = 10 ^ 99 := by
    rcases b2 with b | ⟨j, hj, hne, _⟩
    · exact b
    · omega
  have p0 := (hring (at' pp 0) (at'_mem (by omega))).1
  have hdist := dist2_box h0 a2 p0
  rw [Nat.mul_zero] at a1 hdist b3
  rw [a1, b3, hm] at hdist
  have h8 : Real.sqrt G.dim ≤ 3 := by
    rw [show (3 : ℝ) = Real.sqrt 9 by rw [show (9 : ℝ) = 3 ^ 2 by norm_num, Real.sqrt_sq (by norm_num)]]
    apply Real.sqrt_le_sqrt
    have : (G.dim : ℝ) ≤ 8 := by exact_mod_cast hd
    linarith
  have : Real.sqrt G.dim * G.L3 ≤ 3 * 10 ^ 98 := mul_le_mul h8 hL h0 (by norm_num)
  norm_num at hdist this
  linarith

/-- C74: so with a constant scalar kernel no set of points is ever returned for `reltol < 1e-12`, except the empty one. -/
theorem C74_hang_constant {G : Gen} {e f t : ℝ} (hG : Fine G e f t) (hX : 1 ≤ G.nX) (hY : 1 ≤ G.nY) (h23 : G.L2 ≤ G.L3) (hl : 1 ≤ nLayer G) (hd : G.dim ≤ 8)
    (h0 : 0 ≤ G.L3) (hL : G.L3 ≤ 10 ^ 98) (ht : G.reltol < 1 / 10 ^ 12) (hk : G.kdim = 1) (ha : G.alg ≠ 2) (v : ℝ) (hv : ∀ x y a b, G.kern x y a b = v)
    (fr : Nat) (pp : List Pt) (h : Returns (fun fuel => nlayer G fr fuel) pp) : pp = [] := by
  have h2 := C74_hang hG hX hY h23 hl hd h0 hL ht fr pp h
  obtain ⟨X0, Xp, Yp, layers, S, _, _, _, hl2, _, _, r1, r2, d1, d2⟩ := C74_proxy hG hX hY h23 hl fr pp h
  obtain ⟨q1, _⟩ := d2 ht
  obtain ⟨_, hind, _⟩ := r1 ha
  have : Yp.length < 2 := by
    by_contra hlt
    have := hind (fun s _ => if s = 0 then 1 else if s = 1 then -1 else 0) (by
      intro j hj
      rw [hk]
      simp only [Finset.sum_range_one]
      unfold kblock
      simp only [hv]
      rw [← Finset.sum_mul]
      have : ∑ s ∈ range Yp.length, (if s = 0 then (1 : ℝ) else if s = 1 then -1 else 0) = 0 := by
        obtain ⟨n, hn⟩ : ∃ n, Yp.length = n + 2 := ⟨Yp.length - 2, by omega⟩
        rw [hn, Finset.sum_range_succ', Finset.sum_range_succ']
        simp
      rw [this, zero_mul]) 0 (by omega) 0 (by omega)
    simp at this
  have : pp.length = 0 := by omega
  exact List.length_eq_zero_iff.1 this

/-- C74: several threads and a vector kernel: the last row of the kernel matrix is never stored, whatever the order of the threads. -/
theorem C74_rows_missing {K : Type} (kern : (Nat → K) → (Nat → K) → Nat → Nat → K) (kdim : Nat) (hk : 2 ≤ kdim) (p0 : Nat → Nat → K) (n0 : Nat) (hn : 2 ≤ n0) (p1 : Nat → Nat → K)
    (n1 nThread : Nat) (ht : 2 ≤ nThread) (ord : List Nat) (ho : ord.Perm (List.range nThread)) (junk : Nat → Nat → K) (c : Nat) :
    evalOMP kern kdim p0 n0 p1 n1 nThread ord junk (n0 * kdim - 1) c = junk (n0 * kdim - 1) c := by
  have key : ∀ (l : List Nat) (M : Nat → Nat → K), (∀ tid ∈ l, tid < nThread) → l.foldl (evalThread kern kdim p0 n0 p1 n1 nThread) M (n0 * kdim - 1) c = M (n0 * kdim - 1) c := by
    intro l
    induction l with
    | nil => intro M _; rfl
    | cons x l ih =>
      intro M hl
      rw [List.foldl_cons, ih _ (fun t ht => hl t (List.mem_cons_of_mem _ ht))]
      have hx := hl x (by simp)
      obtain ⟨g, g1, g2, g3, g4, g5, g6⟩ := C01_blocks_contiguous n0 nThread (by omega) (by omega)
      have hb := g1 x (by omega) (by omega)
      obtain ⟨a1, a2, a3⟩ := C01_block_in_range n0 nThread x (by omega) (by omega) (by omega) _ hb
      have hlen : (g x).len < n0 := by
        by_contra hc
        obtain ⟨x', hx'1, hx'2⟩ : ∃ x' : Nat, x' < nThread ∧ x' ≠ x := by
          by_cases h0 : x = 0
          · exact ⟨1, by omega, by omega⟩
          · exact ⟨0, by omega, by omega⟩
        have hle := g6 x x' (by omega) (by omega) (by omega) (by omega)
        have hb' := g1 x' (by omega) (by omega)
        obtain ⟨a1', a2', a3'⟩ := C01_block_in_range n0 nThread x' (by omega) (by omega) (by omega) _ hb'
        have hlen' : 1 ≤ (g x').len := by omega
        obtain ⟨i, ⟨i1, i2, i3⟩, i4⟩ := (C01_blocks_tile n0 nThread (by omega) (by omega) (g x').spos).1 ⟨by omega, by omega⟩
        have e1 := i4 x' ⟨by omega, by omega, _, hb', ⟨le_refl _, by omega⟩⟩
        have e2 := i4 x ⟨by omega, by omega, _, hb, ⟨by omega, by omega⟩⟩
        omega
      unfold evalThread
      rw [hb]
      dsimp only
      rw [if_neg]
      intro hc
      have h1 := hc.2.1
      obtain ⟨sp, hsp⟩ : ∃ sp : Nat, (g x).spos = sp := ⟨(g x).spos.toNat, by omega⟩
      obtain ⟨ln, hln⟩ : ∃ ln : Nat, (g x).len = ln := ⟨(g x).len.toNat, by omega⟩
      rw [hsp, hln] at h1 a3
      rw [hln] at hlen
      simp only [Int.toNat_natCast] at h1
      have q1 : sp + ln ≤ n0 := by exact_mod_cast a3
      have q2 : ln < n0 := by exact_mod_cast hlen
      obtain ⟨k, rfl⟩ : ∃ k, kdim = k + 2 := ⟨kdim - 2, by omega⟩
      have : sp + ln * (k + 2) + 1 ≤ n0 * (k + 2) := by nlinarith
      omega
  exact key ord junk fun t ht => List.mem_range.1 (ho.mem_iff.1 ht)

/-! ## A case -/

/-- One candidate in either domain, a constant kernel. -/
noncomputable def exG : Gen where
  dim := 1
  kdim := 1
  reltol := 1 / 10 ^ 6
  kern := fun _ _ _ _ => 1
  L1 := 1
  L2 := 3
  L3 := 5
  alg := 0
  nX := 1
  nY := 1
  maxLayer := 8
  ops := realOps 0 0 0
  sz := 16
  nThread := 1
  rnd := fun t => if t = 0 then 3 / 4 else 7 / 8
  rb := fun _ => 0
  ord := fun _ => [0]
  junk := fun _ _ _ => 0
  env := fun _ => ⟨fun _ => 0, fun _ => 0, fun _ _ => 0, fun _ => 0, fun _ => 0, fun _ => 0, fun _ => 0⟩

theorem exG_fine : Fine exG 0 0 0 := ⟨rfl, le_refl _, by decide, by decide, fun _ => List.Perm.refl _, Or.inl rfl⟩

theorem exG_layer : nLayer exG = 1 := by unfold nLayer exG; simp

theorem exG_returns : ∃ pp, pp.length = 1 ∧ Returns (fun fuel => nlayer exG 1 fuel) pp := by
  have hx : ∃ x, genRing exG.dim 0 exG.L1 exG.rnd 1 exG.nX 0 = .ok ([x], 1) := by
    refine ⟨fun j => if j < 1 then 3 / 4 * 1 - 1 / 2 * 1 else 0, ?_⟩
    show genRing 1 0 1 exG.rnd 1 1 0 = _
    rw [genRing, ringDraw, if_pos, Res.bind_ok, genRing, Res.bind_ok]
    · congr 3
      funext j
      by_cases hj : j < 1
      · have : j = 0 := by omega
        subst this
        simp [exG]
      · dsimp only; rw [if_neg hj, if_neg hj]
    · rw [pointInBox_iff, pointInBox_false]
      unfold InBox exG
      refine ⟨fun j hj => ?_, fun h => ?_⟩
      · have : j = 0 := by omega
        subst this
        norm_num [abs_le]
      · have := h 0 (by norm_num)
        norm_num [abs_le] at this
  have hy : ∃ y, genLayers exG 1 (nLayer exG).toNat 0 1 = .ok ([[y]], 2) := by
    refine ⟨fun j => if j < 1 then 7 / 8 * 5 - 1 / 2 * 5 else 0, ?_⟩
    have hr : genRing exG.dim (exG.L2 + (exG.L3 - exG.L2) / (nLayer exG : ℝ) * ((0 : Nat) : ℝ)) (exG.L2 + (exG.L3 - exG.L2) / (nLayer exG : ℝ) * (((0 : Nat) : ℝ) + 1)) exG.rnd 1 exG.nY 1 =
        .ok ([fun j => if j < 1 then 7 / 8 * 5 - 1 / 2 * 5 else 0], 2) := by
      rw [exG_layer, show exG.L2 + (exG.L3 - exG.L2) / ((1 : Int) : ℝ) * ((0 : Nat) : ℝ) = 3 by unfold exG; norm_num,
        show exG.L2 + (exG.L3 - exG.L2) / ((1 : Int) : ℝ) * (((0 : Nat) : ℝ) + 1) = 5 by unfold exG; norm_num]
      show genRing 1 3 5 exG.rnd 1 1 1 = _
      rw [genRing, ringDraw, if_pos, Res.bind_ok, genRing, Res.bind_ok]
      · simp [exG]
      · rw [pointInBox_iff, pointInBox_false]
        unfold InBox exG
        refine ⟨fun j hj => ?_, fun h => ?_⟩
        · have : j = 0 := by omega
          subst this
          norm_num [abs_le]
        · have := h 0 (by norm_num)
          norm_num [abs_le] at this
    rw [show (nLayer exG).toNat = 1 by rw [exG_layer]; rfl, genLayers]
    rw [hr, Res.bind_ok, genLayers, Res.bind_ok]
  obtain ⟨x, hx⟩ := hx
  obtain ⟨y, hy⟩ := hy
  have hsk : ∃ Xp, Xp.length = 1 ∧ Returns (fun fuel => skelX exG [x] [y] 1 fuel) Xp := by
    rcases skelX_spec exG_fine [x] [y] (by simp) 1 with ⟨r, hr, F, hF⟩ | ⟨Xp, S, hXp, hS, hR⟩
    · exfalso
      have hm : sparseMM exG.rb (min 32 1) [[0]] (evalK exG 0 [x] [y]) 0 0 ≠ 0 := by
        have := evalK_spec exG_fine 0 [x] [y] 0 (by simp) 0 (by decide) 0 (by simp [exG])
        rw [Nat.zero_mul, Nat.zero_add] at this
        have h1 : sparseMM exG.rb (min 32 1) [[0]] (evalK exG 0 [x] [y]) 0 0 = 0 + sparseVal exG.rb 0 * evalK exG 0 [x] [y] 0 0 := rfl
        rw [h1, this]
        simp [sparseVal, kblock, exG]
      obtain ⟨J, len, U, F', hF'⟩ := C47_relative_returns (e := 0) (f := 0) (t := 0) exG.sz 1 1 (by norm_num) (exG.reltol / 100) (by unfold exG; norm_num)
        (sparseMM exG.rb (min 32 1) [[0]] (evalK exG 0 [x] [y])) (exG.env 0) ⟨0, by norm_num, 0, by norm_num, hm⟩
      have h1 := hF (max F F') (le_max_left _ _)
      obtain ⟨r', _, h2⟩ := id_false_of_true (hF' (max F F') (le_max_right _ _))
      unfold skelX at h1
      have hc : sparseCols exG.rb (([y] : List Pt).length * exG.kdim) (min 32 (([y] : List Pt).length * exG.kdim)) 1 (([x] : List Pt).length * exG.kdim)
          (([x] : List Pt).length * exG.kdim * min 32 (([y] : List Pt).length * exG.kdim)) = .ok [[0]] := by rfl
      dsimp only at h1
      rw [hc, Res.bind_ok] at h1
      have : idCompress exG.ops exG.sz (([x] : List Pt).length * exG.kdim) (([x] : List Pt).length * exG.kdim) exG.kdim (Stop.rel (exG.reltol / 100))
        (sparseMM exG.rb (min 32 (([y] : List Pt).length * exG.kdim)) [[0]] (evalK exG 0 [x] [y])) false (exG.env 0) (max F F') = .ok r' := h2
      rw [this, Res.bind_ok] at h1
      rcases hr with rfl | rfl <;> simp at h1
    · refine ⟨Xp, ?_, hXp⟩
      obtain ⟨h1, h2, h3⟩ := hR
      have hle := h1.length_le
      by_contra hne
      have h0 : Xp.length = 0 := by simp at hle; omega
      obtain ⟨z, hz, c, hc⟩ := h3 x (by simp)
      obtain ⟨D, d1, d2, d3⟩ := hS 0 (by simp [exG])
      have hS0 : S 0 0 = 1 ∨ S 0 0 = -1 := by
        refine (d3 0).1 ?_
        have hcard : D.card = 1 := by rw [d2]; rfl
        obtain ⟨a, rfl⟩ := Finset.card_eq_one.1 hcard
        have := d1 (Finset.mem_singleton_self a)
        simp [exG] at this
        simp [this]
      have hz' : z = x := by simpa using hz
      subst hz'
      have e1 : ∀ a j, sketch (kblock exG.kern exG.kdim [y]) (([y] : List Pt).length * exG.kdim) S z a j = S 0 j := by
        intro a j
        simp [sketch, kblock, exG]
      have hsq : S 0 0 ^ 2 = 1 := by rcases hS0 with h | h <;> rw [h] <;> norm_num
      have e2 : blockErr (sketch (kblock exG.kern exG.kdim [y]) (([y] : List Pt).length * exG.kdim) S) exG.kdim (([z] : List Pt).length * exG.kdim) Xp c z = 1 := by
        unfold blockErr
        rw [h0]
        simp only [e1, Finset.range_zero, Finset.sum_empty, sub_zero]
        show Real.sqrt (∑ _a ∈ range 1, ∑ j ∈ range 1, S 0 j ^ 2) = 1
        simp [hsq]
      have e3 : blockNorm (sketch (kblock exG.kern exG.kdim [y]) (([y] : List Pt).length * exG.kdim) S) exG.kdim (([z] : List Pt).length * exG.kdim) z = 1 := by
        unfold blockNorm
        simp only [e1]
        show Real.sqrt (∑ _a ∈ range 1, ∑ j ∈ range 1, S 0 j ^ 2) = 1
        simp [hsq]
      rw [e2, e3] at hc
      unfold tauOf exG at hc
      norm_num at hc
  obtain ⟨Xp, hXl, F1, hF1⟩ := hsk
  have hXe : ∃ z, Xp = [z] := List.length_eq_one_iff.1 hXl
  obtain ⟨z, rfl⟩ := hXe
  have hYp : ∃ Yp, Yp.length = 1 ∧ Returns (fun fuel => selectY exG [[y]] [z] fuel) Yp := by
    rcases idSelect_spec exG_fine 1 [y] [z] (by simp) with ⟨F, hF⟩ | ⟨Yp, hYp, hR⟩
    · exfalso
      have hm : evalK exG 1 [y] [z] 0 0 ≠ 0 := by
        have := evalK_spec exG_fine 1 [y] [z] 0 (by simp) 0 (by decide) 0 (by simp [exG])
        rw [Nat.zero_mul, Nat.zero_add] at this
        rw [this]
        simp [kblock, exG]
      obtain ⟨J, len, U, F', hF'⟩ := C47_relative_returns (e := 0) (f := 0) (t := 0) exG.sz 1 1 (by norm_num) (exG.reltol / 100) (by unfold exG; norm_num)
        (evalK exG 1 [y] [z]) (exG.env 1) ⟨0, by norm_num, 0, by norm_num, hm⟩
      have h1 := hF (max F F') (le_max_left _ _)
      obtain ⟨r', _, h2⟩ := id_false_of_true (hF' (max F F') (le_max_right _ _))
      dsimp only at h1
      unfold idSelect at h1
      have : idCompress exG.ops exG.sz (([y] : List Pt).length * exG.kdim) (([z] : List Pt).length * exG.kdim) exG.kdim (Stop.rel (exG.reltol / 100))
        (evalK exG 1 [y] [z]) false (exG.env 1) (max F F') = .ok r' := h2
      rw [this, Res.bind_ok] at h1
      simp at h1
    · refine ⟨Yp, ?_, ?_⟩
      · obtain ⟨h1, h2, h3⟩ := hR
        have hle := h1.length_le
        by_contra hne
        have h0 : Yp.length = 0 := by simp at hle; omega
        obtain ⟨w, hw, c, hc⟩ := h3 y (by simp)
        have e2 : ∀ y, blockErr (kblock exG.kern exG.kdim [z]) exG.kdim (([z] : List Pt).length * exG.kdim) Yp c y = 1 := by
          intro y
          unfold blockErr
          rw [h0]
          simp [kblock, exG]
        have e3 : ∀ y, blockNorm (kblock exG.kern exG.kdim [z]) exG.kdim (([z] : List Pt).length * exG.kdim) y = 1 := by
          intro y
          unfold blockNorm
          simp [kblock, exG]
        rw [e2, e3] at hc
        unfold tauOf exG at hc
        norm_num at hc
      · obtain ⟨F, hF⟩ := hYp
        exact ⟨F, fun fuel hf => hF fuel hf⟩
  obtain ⟨Yp, hYl, F2, hF2⟩ := hYp
  refine ⟨Yp, hYl, max F1 F2, fun fuel hf => ?_⟩
  have h1 := hF1 fuel (by omega)
  have h2 := hF2 fuel (by omega)
  dsimp only at h1 h2 ⊢
  unfold nlayer
  rw [hx, Res.bind_ok]
  dsimp only
  rw [hy, Res.bind_ok]
  dsimp only
  rw [show ([[y]] : List (List Pt)).flatten = [y] from rfl, h1, Res.bind_ok, h2, Res.bind_ok, if_pos]
  unfold exG
  norm_num

example : ∃ pp : List Pt, pp.length = 1 ∧ ∀ x ∈ pp, InBox 1 5 x ∧ ¬ InBox 1 3 x := by
  obtain ⟨pp, h1, h2⟩ := exG_returns
  exact ⟨pp, h1, C74_ring exG_fine (by decide) (by decide) (by unfold exG; norm_num) (by rw [exG_layer]) 1 pp h2⟩

/-- The rows that two threads store for a kernel with two components: the last row is missing. -/
example (junk : Nat → Nat → ℝ) : evalOMP (fun _ _ _ _ => (1 : ℝ)) 2 (fun _ _ => 0) 2 (fun _ _ => 0) 1 2 [1, 0] junk 3 0 = junk 3 0 :=
  C74_rows_missing _ 2 (le_refl _) _ 2 (le_refl _) _ 1 2 (le_refl _) [1, 0] (by decide) junk 0

end H2Pack.Proxy
