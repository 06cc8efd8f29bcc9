import Verif.Spec.BuildUJ
import Verif.Props.Matmul
import Verif.Props.ID
import Verif.Proof.Fuel
import Verif.Proof.AdmPairs
import Mathlib.Data.List.NodupEquivFin

set_option linter.unusedSectionVars false

namespace H2Pack.UJ
open H2Pack.Part (Arr kids ClusterTree)
open H2Pack.MV (point kmat copyMatrix gatherCols mul_add_inj)
open H2Pack.ID (Ops Stop IDEnv idCompress Selected skel)

variable {K : Type} [Field K]

theorem copyMatrix_pos (src : Nat → K) (lds ldd ncol : Nat) (h : ncol ≤ ldd) (dst : Nat → K) (n : Nat) :
    (∀ r < n, ∀ l < ncol, copyMatrix n ncol src lds dst ldd (r * ldd + l) = src (r * lds + l)) ∧
    ∀ p, (∀ r < n, ∀ l < ncol, p ≠ r * ldd + l) → copyMatrix n ncol src lds dst ldd p = dst p :=
  H2Pack.MV.gatherRows_pos id src lds ldd ncol h dst n

/-- The first `n` entries of an array. -/
def firstN (d : Nat → Nat) (n : Nat) : List Nat := (List.range n).map d

theorem firstN_length (d : Nat → Nat) (n : Nat) : (firstN d n).length = n := by simp [firstN]

theorem concatJ_spec (cs : List (Slot K)) : ∀ (s : (Nat → Nat) × Nat),
    let r := cs.foldl (fun (s : (Nat → Nat) × Nat) c => (fun k => if s.2 ≤ k ∧ k < s.2 + c.jl then c.jd (k - s.2) else s.1 k, s.2 + c.jl)) s
    firstN r.1 r.2 = firstN s.1 s.2 ++ cs.flatMap Slot.pts := by
  induction cs with
  | nil => intro s; simp
  | cons c l ih =>
    intro s
    dsimp only at ih ⊢
    rw [List.foldl_cons, ih, List.flatMap_cons, ← List.append_assoc]
    congr 1
    unfold firstN Slot.pts
    rw [List.range_add, List.map_append, List.map_map]
    congr 1
    · apply List.map_congr_left
      intro k hk
      rw [List.mem_range] at hk
      dsimp only
      rw [if_neg (by omega)]
    · apply List.map_congr_left
      intro k hk
      rw [List.mem_range] at hk
      simp only [Function.comp]
      rw [if_pos (by omega)]
      congr 1; omega

theorem concatC_spec (xdim tot : Nat) (X : Nat → Nat → K) (cs : List (Slot K)) (hc : ∀ c ∈ cs, ∀ d < xdim, ∀ k < c.jl, c.jc (d * c.jl + k) = X d (c.jd k)) :
    ∀ (s : (Nat → K) × Nat) (L : List Nat), s.2 = L.length → s.2 + (cs.flatMap Slot.pts).length ≤ tot →
    (∀ d < xdim, ∀ k < L.length, s.1 (d * tot + k) = X d (L.getD k 0)) →
    let r := cs.foldl (fun (s : (Nat → K) × Nat) c => (copyAt s.2 xdim c.jl c.jc c.jl s.1 tot, s.2 + c.jl)) s
    ∀ d < xdim, ∀ k < (L ++ cs.flatMap Slot.pts).length, r.1 (d * tot + k) = X d ((L ++ cs.flatMap Slot.pts).getD k 0) := by
  induction cs with
  | nil => intro s L _ _ h; simpa using h
  | cons c l ih =>
    intro s L hs ht h
    dsimp only at ih ⊢
    rw [List.foldl_cons, List.flatMap_cons, ← List.append_assoc]
    have hp : c.pts.length = c.jl := firstN_length _ _
    rw [List.flatMap_cons, List.length_append, hp] at ht
    refine ih (fun x hx => hc x (List.mem_cons_of_mem _ hx)) _ (L ++ c.pts) ?_ (by dsimp only; omega) ?_
    · dsimp only; rw [List.length_append, hp, hs]
    · intro d hd k hk
      rw [List.length_append, hp] at hk
      dsimp only
      unfold copyAt
      by_cases hk' : k < L.length
      · have e : (L ++ c.pts).getD k 0 = L.getD k 0 := by simp [List.getD, List.getElem?_append_left hk']
        rw [e, ← h d hd k hk']
        by_cases hlt : d * tot + k < s.2
        · rw [if_pos hlt]
        · rw [if_neg hlt, (copyMatrix_pos c.jc c.jl tot c.jl (by omega) _ xdim).2]
          · show s.1 (s.2 + (d * tot + k - s.2)) = _
            rw [show s.2 + (d * tot + k - s.2) = d * tot + k by omega]
          · intro r hr j hj he
            have := mul_add_inj (n := tot) (a := d) (k := k) (b := r) (c := s.2 + j) (by omega) (by omega) (by omega)
            omega
      · rw [if_neg (show ¬ d * tot + k < s.2 by omega), show d * tot + k - s.2 = d * tot + (k - s.2) by omega,
          (copyMatrix_pos c.jc c.jl tot c.jl (by omega) _ xdim).1 d hd (k - s.2) (by omega),
          hc c (List.mem_cons_self ..) d hd _ (by omega)]
        congr 1
        rw [List.getD, List.getElem?_append_right (by omega), ← hs]
        simp [Slot.pts, show k - s.2 < c.jl by omega]

theorem chooseJ_spec (sub : Nat → Nat) (d : Nat → Nat) : ∀ len, (∀ a b, a < b → b < len → sub a < sub b) →
    ∀ k, chooseJ sub len d k = if k < len then d (sub k) else d k := by
  intro len
  induction len with
  | zero => intro _ k; simp [chooseJ]
  | succ n ih =>
    intro h k
    have hge : ∀ j ≤ n, j ≤ sub j := by
      intro j
      induction j with
      | zero => intro _; omega
      | succ j ihj => intro hj; have := ihj (by omega); have := h j (j + 1) (by omega) (by omega); omega
    have hs : chooseJ sub (n + 1) d = Function.update (chooseJ sub n d) n (chooseJ sub n d (sub n)) := by
      unfold chooseJ; rw [List.range_succ, List.foldl_append]; rfl
    have ih' := ih (fun a b h1 h2 => h a b h1 (by omega))
    rw [hs]
    by_cases e : k = n
    · subst e
      have := hge k (le_refl _)
      rw [Function.update_self, ih', if_neg (by omega), if_pos (by omega)]
    · rw [Function.update_of_ne e, ih']
      by_cases hk : k < n
      · rw [if_pos hk, if_pos (by omega)]
      · rw [if_neg hk, if_neg (by omega)]

theorem sublist_choose (d sub : Nat → Nat) (len n : Nat) (h : ∀ a b, a < b → b < len → sub a < sub b) (hr : ∀ i < len, sub i < n) :
    (firstN (fun k => d (sub k)) len).Sublist (firstN d n) := by
  have hcomp : firstN (fun k => d (sub k)) len = ((List.range len).map sub).map d := by simp [firstN, Function.comp_def]
  rw [hcomp, firstN]
  apply List.Sublist.map
  have : StrictMono (fun i : Nat => if i < len then sub i else n + i) := by
    intro a b hab
    dsimp only
    by_cases hb : b < len
    · rw [if_pos (by omega), if_pos hb]; exact h a b hab hb
    · rw [if_neg hb]
      by_cases ha : a < len
      · rw [if_pos ha]; have := hr a ha; omega
      · rw [if_neg ha]; omega
  refine List.sublist_of_orderEmbedding_getElem?_eq (OrderEmbedding.ofStrictMono _ this) ?_
  intro i
  by_cases hi : i < len
  · have := hr i hi
    simp [hi, List.getElem?_range, this]
  · simp [hi, List.getElem?_range]

/-- The slots of the children. -/
theorem getSlots_ok {st : Nat → Res (Slot K)} {sl : Nat → Slot K} : ∀ l : List Nat, (∀ c ∈ l, st c = .ok (sl c)) → getSlots st l = .ok (l.map sl) := by
  intro l
  induction l with
  | nil => intro _; rfl
  | cons c l ih =>
    intro h
    rw [getSlots, h c (List.mem_cons_self ..), Res.bind_ok, ih (fun x hx => h x (List.mem_cons_of_mem _ hx)), Res.bind_ok]
    rfl

theorem getSlots_inv {st : Nat → Res (Slot K)} : ∀ (l : List Nat) (r : List (Slot K)), getSlots st l = .ok r → ∀ c ∈ l, ∃ s, st c = .ok s := by
  intro l
  induction l with
  | nil => intro r _ c hc; exact absurd hc (by simp)
  | cons x l ih =>
    intro r h c hc
    rw [getSlots] at h
    cases hx : st x with
    | ub => rw [hx] at h; simp at h
    | diverge => rw [hx] at h; simp at h
    | ok s =>
      rw [hx, Res.bind_ok] at h
      rcases List.mem_cons.1 hc with rfl | hc
      · exact ⟨s, hx⟩
      · cases hl : getSlots st l with
        | ub => rw [hl] at h; simp at h
        | diverge => rw [hl] at h; simp at h
        | ok r' => exact ih r' hl c hc

/-- Candidates of a node: list and coordinates. -/
theorem candidates_spec {S : Input K} {st : Nat → Res (Slot K)} {sl : Nat → Slot K} {v : Nat}
    (hk : S.arr.height v ≠ 0 → ∀ c ∈ kids S.arr v, st c = .ok (sl c) ∧ ∀ d < S.xdim, ∀ k < (sl c).jl, (sl c).jc (d * (sl c).jl + k) = S.coord (d * S.nPoint + (sl c).jd k)) :
    ∃ jd x, candidates S v st = .ok (jd, (cands S sl v).length, x) ∧ firstN jd (cands S sl v).length = cands S sl v ∧
      ∀ d < S.xdim, ∀ k < (cands S sl v).length, x (d * (cands S sl v).length + k) = S.coord (d * S.nPoint + (cands S sl v).getD k 0) := by
  unfold candidates cands
  by_cases h0 : S.arr.height v = 0
  · rw [if_pos h0, if_pos h0, List.length_range']
    generalize hn : S.arr.ptE v - S.arr.ptS v + 1 = n
    refine ⟨_, _, by rw [← hn]; rfl, ?_, ?_⟩
    · unfold firstN leafJ
      rw [List.range'_eq_map_range]
      apply List.map_congr_left
      intro k hk
      rw [List.mem_range] at hk
      dsimp only
      rw [if_pos (by omega)]
    · intro d hd k hk
      have hl : (leafJ S v).2.1 = n := hn
      rw [hl, (copyMatrix_pos _ _ _ _ (le_refl _) _ _).1 d hd k hk]
      have hx : (leafJ S v).2.2 = copyMatrix S.xdim n (fun t => S.coord (S.arr.ptS v + t)) S.nPoint (S.junkC v) n := by
        rw [← hn]; rfl
      rw [hx, (copyMatrix_pos _ _ _ _ (le_refl _) _ _).1 d hd k hk]
      congr 1
      simp [List.getD, hk]
      omega
  · rw [if_neg h0, if_neg h0]
    have hs := getSlots_ok (kids S.arr v) (fun c hc => ((hk h0) c hc).1)
    rw [hs, Res.bind_ok]
    have e := concatJ_spec ((kids S.arr v).map sl) (S.junkJ v, 0)
    dsimp only at e
    have hfl : ((kids S.arr v).map sl).flatMap Slot.pts = (kids S.arr v).flatMap fun c => (sl c).pts := by rw [List.flatMap_map]
    have e' : firstN (concatJ ((kids S.arr v).map sl) (S.junkJ v)).1 (concatJ ((kids S.arr v).map sl) (S.junkJ v)).2 = (kids S.arr v).flatMap fun c => (sl c).pts := by
      rw [← hfl]; exact e
    have hlen : (concatJ ((kids S.arr v).map sl) (S.junkJ v)).2 = ((kids S.arr v).flatMap fun c => (sl c).pts).length := by
      rw [← e', firstN_length]
    refine ⟨_, _, by rw [← hlen], by rw [← hlen]; exact e', ?_⟩
    have := concatC_spec S.xdim (concatJ ((kids S.arr v).map sl) (S.junkJ v)).2 (fun d p => S.coord (d * S.nPoint + p)) ((kids S.arr v).map sl)
      (fun c hc => by obtain ⟨x, hx, rfl⟩ := List.mem_map.1 hc; exact ((hk h0) x hx).2) (S.junkS v, 0) [] rfl (by rw [hfl, hlen]; dsimp only; omega)
      (fun d _ k hk => by simp at hk)
    dsimp only at this
    rw [List.nil_append, hfl] at this
    rw [← hlen] at this ⊢
    exact this

/-- The last two steps. -/
theorem compress_spec {S : Input K} (hkd : 0 < S.kdim) (hO : ∀ a b, S.ops.div a b ≠ .diverge) {fuel v : Nat} {jd : Nat → Nat} {jl ncol : Nat} {A : Nat → Nat → K} {s : Slot K}
    (h : compress S fuel v jd jl ncol A = .ok s) :
    ∃ sub, Returns (fun fuel => idCompress S.ops S.sz (jl * S.kdim) ncol S.kdim S.stop A true (S.env v) fuel) ((sub, s.jl), s.U) ∧
      Selected S.ops.zero S.ops.one (jl * S.kdim) S.kdim sub s.jl s.U ∧ 0 < jl ∧ s.jl ≤ jl ∧ s.jl * S.kdim ≤ ncol ∧
      (∀ n, S.stop = .rank n → ((s.jl * S.kdim : Nat) : Int) ≤ max 0 n) ∧
      (∀ k < s.jl, s.jd k = jd (sub k)) ∧ ∀ d < S.xdim, ∀ k < s.jl, s.jc (d * s.jl + k) = S.coord (d * S.nPoint + s.jd k) := by
  unfold compress at h
  cases hi : idCompress S.ops S.sz (jl * S.kdim) ncol S.kdim S.stop A true (S.env v) fuel with
  | ub => rw [hi] at h; simp at h
  | diverge => rw [hi] at h; simp at h
  | ok r =>
    rw [hi, Res.bind_ok] at h
    have hs := (Res.ok.inj h).symm
    have hjl : 0 < jl := by
      by_contra h0
      have : jl = 0 := by omega
      subst this
      rw [Nat.zero_mul] at hi
      exact H2Pack.ID.idCompress_empty _ _ _ _ hkd _ _ _ _ _ _ hi
    have hn : 1 ≤ jl * S.kdim := Nat.mul_pos hjl hkd
    have hr : Returns (fun fuel => idCompress S.ops S.sz (jl * S.kdim) ncol S.kdim S.stop A true (S.env v) fuel) ((r.1.1, s.jl), s.U) := by
      rw [hs]
      exact ⟨fuel, fun f hf => H2Pack.ID.idCompress_returns hi f hf⟩
    rcases H2Pack.ID.C28_selection S.ops hO S.sz (jl * S.kdim) ncol S.kdim hkd hn S.stop A (S.env v) with ⟨F, hF⟩ | ⟨J, len, U, h1, h2, h3, h4, h5⟩
    · exfalso
      have e1 := hF (max F fuel) (le_max_left _ _)
      have e2 := H2Pack.ID.idCompress_returns hi (max F fuel) (le_max_right _ _)
      beta_reduce at e1
      rw [e1] at e2; simp at e2
    · obtain ⟨F, hF⟩ := h1
      have e1 := hF (max F fuel) (le_max_left _ _)
      have e2 := H2Pack.ID.idCompress_returns hi (max F fuel) (le_max_right _ _)
      beta_reduce at e1
      rw [e1] at e2
      have e3 := (Res.ok.inj e2).symm
      have a1 : r.1.1 = J := by rw [e3]
      have a2 : s.jl = len := by rw [hs, e3]
      have a3 : s.U = U := by rw [hs, e3]
      have a4 : ∀ k < s.jl, s.jd k = jd (r.1.1 k) := by
        intro k hk
        have : s.jd = chooseJ r.1.1 r.1.2 jd := by rw [hs]
        rw [this, chooseJ_spec _ _ _ (by rw [e3]; exact h2.increasing), if_pos]
        rw [hs] at hk; exact hk
      refine ⟨r.1.1, hr, by rw [a1, a2, a3]; exact h2, hjl, ?_, by rw [a2]; exact h4, by rw [a2]; exact h5, a4, ?_⟩
      · rw [a2]
        exact Nat.le_of_mul_le_mul_right h3 hkd
      · intro d hd k hk
        have : s.jc = gatherCols S.xdim s.jl s.jd S.coord S.nPoint (S.junkC v) s.jl := by rw [hs]
        rw [this, (H2Pack.MV.gatherCols_pos s.jd S.coord S.nPoint s.jl s.jl (le_refl _) (S.junkC v) S.xdim).1 d hd k hk]

/-- Candidates are increasing points of the cluster. -/
theorem cands_inc {S : Input K} (T : ClusterTree S.arr S.nPoint) {sl : Nat → Slot K} {v : Nat} (hv : v < S.arr.nNode)
    (hk : S.arr.height v ≠ 0 → ∀ c ∈ kids S.arr v, Skeleton S sl c) :
    (cands S sl v).Pairwise (· < ·) ∧ ∀ p ∈ cands S sl v, S.arr.ptS v ≤ p ∧ p ≤ S.arr.ptE v := by
  unfold cands
  by_cases h0 : S.arr.height v = 0
  · rw [if_pos h0]
    refine ⟨List.pairwise_lt_range', ?_⟩
    intro p hp
    rw [List.mem_range'_1] at hp
    have := T.clusterLe v hv
    omega
  · rw [if_neg h0]
    have hne : S.arr.nChild v ≠ 0 := fun h => h0 (T.leafHeight v hv h)
    refine ⟨?_, ?_⟩
    · rw [List.pairwise_flatMap]
      refine ⟨fun c hc => ((hk h0) c hc).increasing, ?_⟩
      refine List.Pairwise.imp_of_mem ?_ (H2Pack.Part.ClusterTree.kids_pairwise T hv hne)
      intro a b ha hb hab x hx y hy
      have := (((hk h0) a ha).cluster x hx).2
      have := (((hk h0) b hb).cluster y hy).1
      omega
    · intro p hp
      obtain ⟨c, hc, hp⟩ := List.mem_flatMap.1 hp
      have h1 := ((hk h0) c hc).cluster p hp
      have h2 := T.kid_cluster hv hc
      omega

/-- Nodes are handled from the slots of their children. -/
theorem skeleton_of {S : Input K} (T : ClusterTree S.arr S.nPoint) (hkd : 0 < S.kdim) (hO : ∀ a b, S.ops.div a b ≠ .diverge)
    {st : Nat → Res (Slot K)} {sl : Nat → Slot K} {v : Nat} (hv : v < S.arr.nNode) {fuel ncol : Nat} {A : Nat → Nat → K} {c : (Nat → Nat) × Nat × (Nat → K)}
    (hk : S.arr.height v ≠ 0 → ∀ c ∈ kids S.arr v, st c = .ok (sl c) ∧ Skeleton S sl c)
    (hc : candidates S v st = .ok c) (h : compress S fuel v c.1 c.2.1 ncol A = .ok (sl v)) :
    Skeleton S sl v ∧ 0 < (cands S sl v).length := by
  obtain ⟨jd, x, e1, e2, e3⟩ := candidates_spec (S := S) (st := st) (sl := sl) (v := v) (fun h0 c hc => ⟨(hk h0 c hc).1, (hk h0 c hc).2.coord⟩)
  rw [e1] at hc
  have hc' := (Res.ok.inj hc).symm
  subst hc'
  dsimp only at h
  obtain ⟨sub, h1, h2, h3, h4, h5, h6, h7, h8⟩ := compress_spec hkd hO h
  have hdiv : (cands S sl v).length * S.kdim / S.kdim = (cands S sl v).length := Nat.mul_div_cancel _ hkd
  have hin : ∀ i < (sl v).jl, sub i < (cands S sl v).length := fun i hi => by
    have := h2.inRange i hi; rwa [hdiv] at this
  have hpts : (sl v).pts = firstN (fun k => jd (sub k)) (sl v).jl := by
    unfold Slot.pts firstN
    apply List.map_congr_left
    intro k hk
    exact h7 k (List.mem_range.1 hk)
  have hsub : (sl v).pts.Sublist (cands S sl v) := by
    rw [hpts]
    refine List.Sublist.trans (sublist_choose jd sub _ _ h2.increasing hin) ?_
    rw [e2]
  have hinc := cands_inc T hv (fun h0 c hc => (hk h0 c hc).2)
  refine ⟨⟨hsub, hinc.1.sublist hsub, fun p hp => hinc.2 p (hsub.subset hp), h8, h2.rows, h2.cols, ?_, h2.stored, ?_⟩, h3⟩
  · rw [h2.rows, h2.cols]; exact Nat.mul_le_mul_right _ h4
  · intro i hi k hk he a ha t ht
    have hjd : jd i = (cands S sl v)[i] := by
      have h9 := List.getElem_of_eq e2.symm hi
      rw [h9]
      simp [firstN]
    have hik : i = sub k := by
      rw [List.getElem?_eq_getElem hi, Option.some.injEq] at he
      rw [h7 k hk] at he
      have hsk := hin k hk
      have hjd' : jd (sub k) = (cands S sl v)[sub k] := by
        have h9 := List.getElem_of_eq e2.symm hsk
        rw [h9]
        simp [firstN]
      rw [hjd'] at he
      have hnd : (cands S sl v).Nodup := hinc.1.imp (fun h => by omega)
      exact (hnd.getElem_inj_iff).1 he
    rw [h2.cols] at ht
    have hlt : k * S.kdim + a < (sl v).jl * S.kdim := by
      have := Nat.mul_le_mul_right S.kdim (show k + 1 ≤ (sl v).jl by omega)
      rw [Nat.add_mul] at this; omega
    have := h2.identity (k * S.kdim + a) hlt t ht
    rw [skel] at this
    have e5 : (k * S.kdim + a) / S.kdim = k ∧ (k * S.kdim + a) % S.kdim = a := H2Pack.MV.div_mod_row ha
    rw [e5.1, e5.2, ← hik] at this
    rw [this]
    by_cases e6 : k * S.kdim + a = t
    · rw [if_pos e6, if_pos e6.symm]
    · rw [if_neg e6, if_neg (fun h => e6 h.symm)]

end H2Pack.UJ
