import Verif.Proof.SPD7
import Verif.Proof.ULV7

set_option linter.unusedSectionVars false

/-! # SPDHSS: sizes of the sampled matrices, stacked bases, the matrix of a node with children -/

namespace H2Pack.SPD
open H2Pack.MV (Mat Rep kid off kid_mem)
open H2Pack.ULV (putBlock putBlock_in putBlock_out foldl_inv foldl_range_inv loop loop_snoc mulR deref child off_succ off_mono)
open H2Pack.Part (Arr kids)
open Finset

theorem mat_sized {m : Mat ℝ} {a b : Nat} (h1 : m.nrow = a) (h2 : m.ncol = b) : ∃ e, some m = some ⟨a, b, e⟩ := by
  subst h1 h2; exact ⟨m.e, rfl⟩

theorem vertcat_size {ms : List (Mat ℝ)} {old : Mat ℝ} {n : Nat} (hne : ms ≠ []) (h : ∀ m ∈ ms, m.ncol = n) :
    (vertcat ms old).nrow = (ms.map Mat.nrow).sum ∧ (vertcat ms old).ncol = n := by
  obtain ⟨m, ms, rfl⟩ := List.exists_cons_of_ne_nil hne
  unfold vertcat
  rw [if_pos]
  · exact ⟨rfl, h m (by simp)⟩
  · rw [List.all_eq_true]
    intro x hx
    simp [h x hx, h m (by simp)]

theorem vertcat_rows (L : List Nat) (w : Nat → Mat ℝ) (p : Nat → Nat) {n : Nat} (old : Mat ℝ) (hp : ∀ c ∈ L, (w c).nrow = p c) (hn : ∀ c ∈ L, (w c).ncol = n) :
    ∀ k (hk : k < L.length), ∀ a < p L[k], ∀ j < n, (vertcat (L.map w) old).e (pos p L k + a) j = (w L[k]).e a j := by
  intro k hk a ha j hj
  have key := foldl_inv (fun (s : Nat × (Nat → Nat → ℝ)) (m : Mat ℝ) => (s.1 + m.nrow, putBlock s.1 0 m.nrow m.ncol m.e s.2))
    (fun t s => s.1 = pos p L t ∧ ∀ k (hk : k < L.length), k < t → ∀ a < p L[k], ∀ j < n, s.2 (pos p L k + a) j = (w L[k]).e a j) (L.map w) (0, fun _ _ => 0)
    ⟨(pos_zero _ _).symm, fun _ _ h => by omega⟩ (by
      rintro t ht ⟨s1, e⟩ ⟨h1, h2⟩
      rw [List.length_map] at ht
      rw [List.getElem_map]
      have hm : L[t] ∈ L := List.getElem_mem ht
      dsimp only at h1 h2 ⊢
      rw [hp _ hm, hn _ hm]
      refine ⟨by rw [pos_succ p L ht, h1], ?_⟩
      intro k hk hkt a ha j hj
      rcases Nat.lt_succ_iff_lt_or_eq.1 hkt with hlt | rfl
      · rw [putBlock_out, h2 k hk hlt a ha j hj]
        left
        have := pos_mono p L (show k + 1 ≤ t by omega) (by omega)
        rw [pos_succ p L hk] at this
        omega
      · rw [putBlock_in ha hj (by rw [h1]) (by omega)])
  rw [List.length_map] at key
  unfold vertcat
  rw [if_pos]
  · exact key.2 k hk hk a ha j hj
  · rw [List.all_eq_true]
    intro x hx
    obtain ⟨c, hc, rfl⟩ := List.mem_map.1 hx
    have hne : L ≠ [] := by rintro rfl; simp at hc
    obtain ⟨c', L', rfl⟩ := List.exists_cons_of_ne_nil hne
    simp [hn c hc, hn c' (by simp)]

theorem shiftY_gen (f : Mat ℝ → Mat ℝ) (r nvec : Nat) (hf : ∀ y, (f y).nrow = r ∧ (f y).ncol = y.ncol) (hv : 0 < nvec) (s M : Nat) (hsM : s ≤ M) :
    ∀ (n k : Nat) (Y : Nat → Option (Mat ℝ)), 1 ≤ k → k ≤ s → k + n = M → (∀ l, l + 1 < k → ∃ e, Y l = some ⟨r, nvec, e⟩) →
    (∀ l, k ≤ l + 1 → l < s → ∃ m e, Y l = some ⟨m, nvec, e⟩) → (∀ l, s ≤ l → l < M → ∃ e, Y l = some ⟨0, 0, e⟩) →
    ∃ Y', shiftY f n k (k - 1) Y = .ok (Y', s - 1) ∧ (∀ l, l + 1 < s → ∃ e, Y' l = some ⟨r, nvec, e⟩) ∧ (∀ l, s ≤ l + 1 → Y' l = Y l) ∧
      (∀ l, k ≤ l + 1 → l + 1 < s → Y' l = (Y (l + 1)).map f) ∧ ∀ l, l + 1 < k → Y' l = Y l := by
  intro n
  induction n with
  | zero =>
    intro k Y h1 h2 h3 h4 h5 h6
    obtain rfl : k = s := by omega
    exact ⟨Y, rfl, h4, fun _ _ => rfl, fun l _ _ => by omega, fun _ _ => rfl⟩
  | succ n ih =>
    intro k Y h1 h2 h3 h4 h5 h6
    unfold shiftY
    rcases Nat.lt_or_ge k s with hk | hk
    · obtain ⟨m, e, hY⟩ := h5 k (by omega) hk
      obtain ⟨m', e', hY'⟩ := h5 (k - 1) (by omega) (by omega)
      rw [hY, hY']
      unfold need
      dsimp only
      rw [if_neg (show ¬ nvec = 0 by omega)]
      obtain ⟨Y', a1, a2, a3, a4, a5⟩ := ih (k + 1) (Function.update Y (k - 1) (some (f ⟨m, nvec, e⟩))) (by omega) (by omega) (by omega) (by
        intro l hl
        by_cases hlk : l = k - 1
        · subst hlk
          rw [Function.update_self]
          have := hf ⟨m, nvec, e⟩
          exact mat_sized this.1 this.2
        · rw [Function.update_of_ne hlk]; exact h4 l (by omega)) (by
        intro l hl hls
        rw [Function.update_of_ne (by omega)]
        exact h5 l (by omega) hls) (by
        intro l hl hls
        rw [Function.update_of_ne (by omega)]
        exact h6 l hl hls)
      refine ⟨Y', a1, a2, fun l hl => ?_, fun l hl1 hl2 => ?_, fun l hl => ?_⟩
      · rw [a3 l hl, Function.update_of_ne (by omega)]
      · by_cases hlk : l = k - 1
        · rw [a5 l (by omega), hlk, Function.update_self, Nat.sub_add_cancel h1, hY]; rfl
        · rw [a4 l (by omega) hl2, Function.update_of_ne (by omega)]
      · rw [a5 l (by omega), Function.update_of_ne (by omega)]
    · obtain rfl : k = s := by omega
      obtain ⟨e, hY⟩ := h6 k (le_refl _) (by omega)
      rw [hY]
      unfold need
      dsimp only
      rw [if_pos rfl]
      exact ⟨Y, rfl, h4, fun _ _ => rfl, fun l _ _ => by omega, fun _ _ => rfl⟩

/-- The shifted matrices. -/
theorem shiftY_ok (f : Mat ℝ → Mat ℝ) (r nvec : Nat) (hf : ∀ y, (f y).nrow = r ∧ (f y).ncol = y.ncol) (hv : 0 < nvec) {s M : Nat} (h1 : 1 ≤ s) (hsM : s ≤ M)
    (Y : Nat → Option (Mat ℝ)) (hY : ∀ l < s, ∃ m e, Y l = some ⟨m, nvec, e⟩) (hP : ∀ l, s ≤ l → l < M → ∃ e, Y l = some ⟨0, 0, e⟩) :
    ∃ Y', shiftY f (M - 1) 1 0 Y = .ok (Y', s - 1) ∧ (∀ l, l + 1 < s → ∃ e, Y' l = some ⟨r, nvec, e⟩) ∧ (∀ l, s ≤ l + 1 → Y' l = Y l) ∧
      ∀ l, l + 1 < s → Y' l = (Y (l + 1)).map f := by
  obtain ⟨Y', a1, a2, a3, a4, _⟩ := shiftY_gen f r nvec hf hv s M hsM (M - 1) 1 Y (le_refl _) h1 (by omega) (fun l hl => by omega) (fun l _ hl => hY l hl) hP
  exact ⟨Y', a1, a2, a3, fun l hl => a4 l (by omega) hl⟩

/-- The stacked matrices. -/
theorem stackY_ok (R : Rep ℝ) {v : Nat} (hself : v ∉ kids R.arr v) (hne : kids R.arr v ≠ []) (q : Nat → Nat) (nvec s M : Nat) (hsM : s ≤ M) (Y : Nat → Nat → Option (Mat ℝ))
    (hk : ∀ c ∈ kids R.arr v, ∀ l < s, ∃ e, Y c l = some ⟨q c, nvec, e⟩) (hv : ∀ l < M, ∃ e, Y v l = some ⟨0, 0, e⟩) :
    ∃ Y', stackY R v s Y = .ok Y' ∧ (∀ l < s, ∃ e, Y' v l = some ⟨((kids R.arr v).map q).sum, nvec, e⟩ ∧ ∀ k (hk : k < (kids R.arr v).length), ∀ x < q (kids R.arr v)[k], ∀ j < nvec,
        e (pos q (kids R.arr v) k + x) j = (deref (Y (kids R.arr v)[k] l)).e x j) ∧ (∀ l, s ≤ l → Y' v l = Y v l) ∧
      (∀ u, u ≠ v → u ∉ kids R.arr v → Y' u = Y u) := by
  unfold stackY
  have key : ∀ n ≤ s, ∃ Y', loop (fun (Y : Nat → Nat → Option (Mat ℝ)) l => do
      let ms ← needAll ((kids R.arr v).map fun c => Y c l)
      need (Y v l) fun old =>
        let Y := Function.update Y v (Function.update (Y v) l (some (vertcat ms old)))
        .ok ((kids R.arr v).foldl (fun Y c => Function.update Y c (Function.update (Y c) l none)) Y)) (List.range n) Y = .ok Y' ∧
      (∀ l < n, ∃ e, Y' v l = some ⟨((kids R.arr v).map q).sum, nvec, e⟩ ∧ ∀ k (hk : k < (kids R.arr v).length), ∀ x < q (kids R.arr v)[k], ∀ j < nvec,
        e (pos q (kids R.arr v) k + x) j = (deref (Y (kids R.arr v)[k] l)).e x j) ∧ (∀ l, n ≤ l → Y' v l = Y v l) ∧
      (∀ u, u ≠ v → u ∉ kids R.arr v → Y' u = Y u) ∧ (∀ u ∈ kids R.arr v, ∀ l, n ≤ l → Y' u l = Y u l) := by
    intro n
    induction n with
    | zero => intro _; exact ⟨Y, rfl, fun _ h => by omega, fun _ _ => rfl, fun _ _ _ => rfl, fun _ _ _ _ => rfl⟩
    | succ n ih =>
      intro hn
      obtain ⟨Y1, a1, a2, a3, a4, a5⟩ := ih (by omega)
      rw [List.range_succ, loop_snoc, a1]
      choose! g hg using fun c hc => hk c hc n (by omega)
      have hms := needAll_some (kids R.arr v) (f := fun c => Y1 c n) (g := fun c => ⟨q c, nvec, g c⟩) (fun c hc => by rw [a5 c hc n (le_refl _)]; exact hg c hc)
      obtain ⟨e0, he0⟩ := hv n (by omega)
      rw [← a3 n (le_refl _)] at he0
      simp only [Res.bind_ok, hms]
      rw [he0]
      unfold need
      dsimp only
      have hfold : ∀ (L : List Nat) (Z : Nat → Nat → Option (Mat ℝ)) (u l : Nat), (L.foldl (fun Y c => Function.update Y c (Function.update (Y c) n none)) Z) u l =
          if u ∈ L ∧ l = n then none else Z u l := by
        intro L
        induction L with
        | nil => intro Z u l; simp
        | cons c L ihL =>
          intro Z u l
          rw [List.foldl_cons, ihL]
          by_cases hl : l = n
          · subst hl
            by_cases hu : u = c
            · subst hu; simp
            · simp [hu]
          · by_cases hu : u = c
            · subst hu; simp [hl]
            · simp [hl, Function.update_of_ne hu]
      have hsz := vertcat_size (ms := (kids R.arr v).map fun c => (⟨q c, nvec, g c⟩ : Mat ℝ)) (old := ⟨0, 0, e0⟩) (n := nvec) (by simpa using hne) (by
        intro m hm
        obtain ⟨c, _, rfl⟩ := List.mem_map.1 hm
        rfl)
      rw [List.map_map] at hsz
      have hrows := vertcat_rows (kids R.arr v) (fun c => (⟨q c, nvec, g c⟩ : Mat ℝ)) q (n := nvec) ⟨0, 0, e0⟩ (fun _ _ => rfl) (fun _ _ => rfl)
      refine ⟨_, rfl, ?_, ?_, ?_, ?_⟩
      · intro l hl
        rw [hfold, if_neg (fun h => hself h.1)]
        rcases Nat.lt_succ_iff_lt_or_eq.1 hl with hlt | rfl
        · rw [Function.update_self, Function.update_of_ne (by omega)]; exact a2 l hlt
        · rw [Function.update_self, Function.update_self]
          refine ⟨(vertcat ((kids R.arr v).map fun c => (⟨q c, nvec, g c⟩ : Mat ℝ)) ⟨0, 0, e0⟩).e, ?_, fun k hk' x hx j hj => ?_⟩
          · obtain ⟨z1, z2⟩ := hsz
            generalize vertcat ((kids R.arr v).map fun c => (⟨q c, nvec, g c⟩ : Mat ℝ)) ⟨0, 0, e0⟩ = z at z1 z2
            obtain ⟨zr, zc, ze⟩ := z
            have z1' : zr = _ := z1
            have z2' : zc = _ := z2
            rw [z1', z2']; rfl
          · rw [hrows k hk' x hx j hj, hg _ (List.getElem_mem hk')]; rfl
      · intro l hl
        rw [hfold, if_neg (fun h => hself h.1), Function.update_self, Function.update_of_ne (by omega)]
        exact a3 l (by omega)
      · intro u hu hu2
        funext l
        rw [hfold, if_neg (fun h => hu2 h.1), Function.update_of_ne hu, a4 u hu hu2]
      · intro u hu l hl
        have huv : u ≠ v := by rintro rfl; exact hself hu
        rw [hfold, if_neg (by rintro ⟨_, h⟩; omega), Function.update_of_ne huv]
        exact a5 u hu l (by omega)
  obtain ⟨Y', a1, a2, a3, a4, _⟩ := key s (le_refl _)
  exact ⟨Y', a1, a2, a3, a4⟩

/-- The stacked products of the bases. -/
theorem stackW_ok (L : List Nat) (w : Nat → Mat ℝ) (p q : Nat → Nat) (hp : ∀ c ∈ L, (w c).nrow = p c) (hq : ∀ c ∈ L, (w c).ncol = q c) (hU : Mat ℝ) :
    (stackW (L.map w) hU).1 = (L.map p).sum ∧ ∀ k (hk : k < L.length), ∀ a < p L[k], ∀ j < hU.ncol,
      (stackW (L.map w) hU).2 (pos p L k + a) j = ∑ d ∈ range (q L[k]), (w L[k]).e a d * hU.e (pos q L k + d) j := by
  have key := foldl_inv (fun (s : Nat × Nat × (Nat → Nat → ℝ)) (w : Mat ℝ) =>
      (s.1 + w.nrow, s.2.1 + w.ncol, putBlock s.1 0 w.nrow hU.ncol (mulR w.ncol w.e fun i j => hU.e (s.2.1 + i) j) s.2.2))
    (fun n s => s.1 = pos p L n ∧ s.2.1 = pos q L n ∧ ∀ k (hk : k < L.length), k < n → ∀ a < p L[k], ∀ j < hU.ncol,
      s.2.2 (pos p L k + a) j = ∑ d ∈ range (q L[k]), (w L[k]).e a d * hU.e (pos q L k + d) j) (L.map w) (0, 0, fun _ _ => 0)
    ⟨(pos_zero _ _).symm, (pos_zero _ _).symm, fun _ _ h => by omega⟩ (by
      rintro n hn ⟨s1, s2, e⟩ ⟨h1, h2, h3⟩
      rw [List.length_map] at hn
      rw [List.getElem_map]
      have hm : L[n] ∈ L := List.getElem_mem hn
      dsimp only at h1 h2 h3 ⊢
      rw [hp _ hm, hq _ hm]
      refine ⟨by rw [pos_succ p L hn, h1], by rw [pos_succ q L hn, h2], ?_⟩
      intro k hk hkn a ha j hj
      rcases Nat.lt_succ_iff_lt_or_eq.1 hkn with hlt | rfl
      · rw [putBlock_out, h3 k hk hlt a ha j hj]
        left
        have := pos_mono p L (show k + 1 ≤ n by omega) (by omega)
        rw [pos_succ p L hk] at this
        omega
      · rw [putBlock_in ha hj (by rw [h1]) (by omega)]
        unfold mulR
        rw [h2])
  rw [List.length_map] at key
  refine ⟨key.1.trans (pos_length p L), fun k hk a ha j hj => key.2.2 k hk hk a ha j hj⟩

/-- Blocks on and above the diagonal. -/
theorem upper_blocks (nc : Nat) (o w : Nat → Nat) (ho : ∀ k, o (k + 1) = o k + w k) (b : Nat → Nat → Mat ℝ)
    (hb : ∀ k l, k < l → l < nc → (b k l).nrow = w k ∧ (b k l).ncol = w l) (junk : Nat → Nat → ℝ) :
    ∀ k < nc, ∀ l < nc, k ≤ l → ∀ x < w k, ∀ y < w l,
      (List.range nc).foldl (fun d k =>
        let d := (List.range' (k + 1) (nc - (k + 1))).foldl (fun d l => putBlock (o k) (o l) (b k l).nrow (b k l).ncol (b k l).e d) d
        let n := o (k + 1) - o k
        putBlock (o k) (o k) n n (fun _ _ => 0) d) junk (o k + x) (o l + y) = if k = l then 0 else (b k l).e x y := by
  have hmono : ∀ k l, k < l → o k + w k ≤ o l := by
    intro k l h
    induction h with
    | refl => rw [ho]
    | step _ ih => rw [ho]; omega
  have key := foldl_range_inv (fun d k =>
        let d := (List.range' (k + 1) (nc - (k + 1))).foldl (fun d l => putBlock (o k) (o l) (b k l).nrow (b k l).ncol (b k l).e d) d
        let n := o (k + 1) - o k
        putBlock (o k) (o k) n n (fun _ _ => 0) d)
    (fun n d => ∀ k < n, ∀ l < nc, k ≤ l → ∀ x < w k, ∀ y < w l, d (o k + x) (o l + y) = if k = l then 0 else (b k l).e x y) nc junk
    (fun k h => by omega) (by
      intro n hn d hd k hk l hl hkl x hx y hy
      dsimp only
      have hin := foldl_inv (fun d l => putBlock (o n) (o l) (b n l).nrow (b n l).ncol (b n l).e d)
        (fun m d' => (∀ l, n < l → l < n + 1 + m → l < nc → ∀ x < w n, ∀ y < w l, d' (o n + x) (o l + y) = (b n l).e x y) ∧
          ∀ r c, ¬ (o n ≤ r ∧ r < o n + w n) → d' r c = d r c) (List.range' (n + 1) (nc - (n + 1))) d
        ⟨fun l h1 h2 => by omega, fun _ _ _ => rfl⟩ (by
          intro m hm d' ⟨g1, g2⟩
          rw [List.length_range'] at hm
          rw [List.getElem_range']
          have hbb := hb n (n + 1 + 1 * m) (by omega) (by omega)
          rw [hbb.1, hbb.2]
          constructor
          · intro l h1 h2 h3 x hx y hy
            by_cases hlm : l = n + 1 + m
            · rw [show n + 1 + 1 * m = l by omega]
              exact putBlock_in hx hy rfl rfl
            · rw [putBlock_out, g1 l h1 (by omega) h3 x hx y hy]
              right
              have := hmono l (n + 1 + 1 * m) (by omega)
              omega
          · intro r c hr
            rw [putBlock_out (Or.inl hr), g2 r c hr])
      rw [List.length_range'] at hin
      have hon : o (n + 1) - o n = w n := by rw [ho]; omega
      rw [hon]
      rcases Nat.lt_succ_iff_lt_or_eq.1 hk with hlt | rfl
      · have := hmono k n hlt
        rw [putBlock_out (Or.inl (by omega)), hin.2 _ _ (by omega)]
        exact hd k hlt l hl hkl x hx y hy
      · by_cases hkl2 : k = l
        · subst hkl2
          rw [if_pos rfl, putBlock_in hx hy rfl rfl]
        · have := hmono k l (by omega)
          rw [if_neg hkl2, putBlock_out (Or.inr (by omega))]
          exact hin.1 l (by omega) (by omega) hl x hx y hy)
  intro k hk l hl hkl x hx y hy
  exact key k hk l hl hkl x hx y hy

end H2Pack.SPD
