import Verif.Proof.BuildUJ
import Verif.Props.Entries
import Verif.Props.HSSBuild

set_option linter.unusedSectionVars false

/-!
# C50: skeleton points and bases
-/

namespace H2Pack.UJ
open H2Pack.Part (Arr kids ClusterTree)
open H2Pack.MV (point kmat)
open H2Pack.ID (Ops Stop IDEnv idCompress Selected skel realOps grpErr grpNorm Fails)
open Finset

section
variable {K : Type} [Field K]

/-- Both constructions have this form. -/
def nodeWith (S : Input K) (fuel : Nat) (M : Nat → (Nat → Nat) × Nat × (Nat → K) → Nat × (Nat → Nat → K)) (v : Nat) (st : Nat → Res (Slot K)) : Res (Slot K) := do
  let c ← candidates S v st
  compress S fuel v c.1 c.2.1 (M v c).1 (M v c).2

theorem ujNode_eq (S : Input K) (fuel : Nat) : ujNode S fuel = nodeWith S fuel (fun v c => ((S.pp (S.arr.level v)).1 * S.kdim,
    kmat S.kern S.kdim (point S.xdim (shiftC S v c.2.1 c.2.2) c.2.1) (point S.xdim (S.pp (S.arr.level v)).2 (S.pp (S.arr.level v)).1))) := rfl

theorem ujNodeAny_eq (S : Input K) (N : Nat → Nat) (A : Nat → Nat → Nat → K) (fuel : Nat) : ujNodeAny S N A fuel = nodeWith S fuel (fun v _ => (N v, A v)) := rfl

theorem candidates_congr {S : Input K} {st st' : Nat → Res (Slot K)} {v : Nat} (h : ∀ c ∈ kids S.arr v, st c = st' c) : candidates S v st = candidates S v st' := by
  unfold candidates
  have : ∀ l : List Nat, (∀ c ∈ l, st c = st' c) → getSlots st l = getSlots st' l := by
    intro l
    induction l with
    | nil => intro _; rfl
    | cons c l ih =>
      intro h
      rw [getSlots, getSlots, h c (List.mem_cons_self ..), ih (fun x hx => h x (List.mem_cons_of_mem _ hx))]
  rw [this _ h]

theorem nodeWith_congr {S : Input K} {fuel : Nat} {M : Nat → (Nat → Nat) × Nat × (Nat → K) → Nat × (Nat → Nat → K)} {st st' : Nat → Res (Slot K)} {v : Nat}
    (h : ∀ c ∈ kids S.arr v, st c = st' c) : nodeWith S fuel M v st = nodeWith S fuel M v st' := by
  unfold nodeWith
  rw [candidates_congr h]

theorem kid_facts {S : Input K} (T : ClusterTree S.arr S.nPoint) {m v c : Nat} (hv : v < S.arr.nNode) (hl : m ≤ S.arr.level v) (hc : c ∈ kids S.arr v) :
    c < v ∧ c < S.arr.nNode ∧ m ≤ S.arr.level c := by
  have h1 := T.childLt v hv c hc
  have h2 := T.childLevel v hv c hc
  exact ⟨h1, by omega, by omega⟩

/-- All nodes. -/
theorem done_skeleton {S : Input K} (T : ClusterTree S.arr S.nPoint) (hkd : 0 < S.kdim) (hO : ∀ a b, S.ops.div a b ≠ .diverge) {m fuel : Nat}
    {M : Nat → (Nat → Nat) × Nat × (Nat → K) → Nat × (Nat → Nat → K)} {st : Nat → Res (Slot K)} (hd : Done S m (nodeWith S fuel M) st) {sl : Nat → Slot K}
    (hok : ∀ v < S.arr.nNode, m ≤ S.arr.level v → st v = .ok (sl v)) :
    ∀ v < S.arr.nNode, m ≤ S.arr.level v → Skeleton S sl v ∧ 0 < (cands S sl v).length ∧
      ∃ c, candidates S v st = .ok c ∧ compress S fuel v c.1 c.2.1 (M v c).1 (M v c).2 = .ok (sl v) := by
  intro v
  induction v using Nat.strong_induction_on with
  | _ v ih =>
    intro hv hl
    have h := hd v hv hl
    rw [hok v hv hl] at h
    unfold nodeWith at h
    cases hc : candidates S v st with
    | ub => rw [hc] at h; simp at h
    | diverge => rw [hc] at h; simp at h
    | ok c =>
      rw [hc, Res.bind_ok] at h
      have := skeleton_of T hkd hO hv (fun _ c hc => by
        obtain ⟨a1, a2, a3⟩ := kid_facts T hv hl hc
        exact ⟨hok c a2 a3, (ih c a1 a2 a3).1⟩) hc h.symm
      exact ⟨this.1, this.2, c, rfl, h.symm⟩

/-- The task queue runs every task once, after those of the children. -/
theorem execution_done {S : Input K} (T : ClusterTree S.arr S.nPoint) {m : Nat} (hm : 1 ≤ m) {fuel P : Nat} {c : H2Pack.DAG.Config (Res (Slot K)) P}
    (hx : H2Pack.DAG.Execution (H2Pack.DAG.upwardDAG S.arr.nNode S.arr.level S.arr.parent m) (ujTask S fuel) c) (hP : 0 < P) (hd : ∀ a, c.th a = .done) :
    Done S m (ujNode S fuel) c.res := by
  intro v hv hl
  have e := H2Pack.DAG.C19_upward_results (H2Pack.Part.up_tree T) hm (f := ujTask S fuel) (fun t r r' h => by
    unfold ujTask
    split
    · next ht =>
      rw [ujNode_eq]
      apply nodeWith_congr
      intro k hk
      have := (T.childLt t ht k hk)
      exact h k (by omega) (T.parentOfChild t ht k hk)
    · rfl) hx hP hd v hv hl
  rw [e, ujTask, if_pos hv]

/-! ## HSS: level by level -/

theorem level_fold {S : Input K} (T : ClusterTree S.arr S.nPoint) {l : Nat} {f : Nat → (Nat → Res (Slot K)) → Res (Slot K)}
    (hf : ∀ v st st', (∀ c ∈ kids S.arr v, st c = st' c) → f v st = f v st') :
    ∀ (L : List Nat) (st : Nat → Res (Slot K)), L.Nodup → (∀ v ∈ L, v < S.arr.nNode ∧ S.arr.level v = l) →
    (∀ v ∈ L, L.foldl (fun st v => Function.update st v (f v st)) st v = f v st) ∧
    ∀ v, v ∉ L → L.foldl (fun st v => Function.update st v (f v st)) st v = st v := by
  intro L
  induction L with
  | nil => intro st _ _; exact ⟨fun v hv => absurd hv (by simp), fun v _ => rfl⟩
  | cons x L ih =>
    intro st hn hL
    have hn' := List.nodup_cons.1 hn
    obtain ⟨i1, i2⟩ := ih (Function.update st x (f x st)) hn'.2 (fun v hv => hL v (List.mem_cons_of_mem _ hv))
    have hk : ∀ v ∈ x :: L, ∀ c ∈ kids S.arr v, c ≠ x := by
      intro v hv c hc he
      have := T.childLevel v (hL v hv).1 c hc
      have h1 := (hL v hv).2
      have h2 := (hL x (List.mem_cons_self ..)).2
      rw [he] at this
      omega
    rw [List.foldl_cons]
    constructor
    · intro v hv
      rcases List.mem_cons.1 hv with rfl | hv'
      · rw [i2 _ hn'.1, Function.update_self]
      · rw [i1 v hv']
        apply hf
        intro c hc
        rw [Function.update_of_ne (hk v hv c hc)]
    · intro v hv
      rw [List.mem_cons, not_or] at hv
      rw [i2 v hv.2, Function.update_of_ne hv.1]

theorem levels_fold {S : Input K} (T : ClusterTree S.arr S.nPoint) {f : Nat → (Nat → Res (Slot K)) → Res (Slot K)}
    (hf : ∀ v st st', (∀ c ∈ kids S.arr v, st c = st' c) → f v st = f v st') {ord : Nat → List Nat}
    (hord : ∀ l, (ord l).Perm ((List.range S.arr.nNode).filter (fun v => S.arr.level v = l))) :
    ∀ (Ls : List Nat) (st : Nat → Res (Slot K)), Ls.Pairwise (· > ·) →
    ∀ v < S.arr.nNode, S.arr.level v ∈ Ls →
    Ls.foldl (fun st l => (ord l).foldl (fun st v => Function.update st v (f v st)) st) st v =
      f v (Ls.foldl (fun st l => (ord l).foldl (fun st v => Function.update st v (f v st)) st) st) := by
  have hmem : ∀ l v, v ∈ ord l ↔ v < S.arr.nNode ∧ S.arr.level v = l := by
    intro l v
    rw [(hord l).mem_iff, List.mem_filter, List.mem_range, decide_eq_true_eq]
  have hnd : ∀ l, (ord l).Nodup := fun l => (hord l).nodup_iff.2 (List.nodup_range.filter _)
  intro Ls st
  induction Ls using List.reverseRecOn with
  | nil => intro _ v _ h; exact absurd h (by simp)
  | append_singleton Ls l ih =>
    intro hp v hv hl
    rw [List.pairwise_append] at hp
    rw [List.foldl_append, List.foldl_cons, List.foldl_nil]
    generalize hR : Ls.foldl (fun st l => (ord l).foldl (fun st v => Function.update st v (f v st)) st) st = R
    rw [hR] at ih
    obtain ⟨s1, s2⟩ := level_fold T (l := l) hf (ord l) R (hnd l) (fun v hv => (hmem l v).1 hv)
    have hkid : ∀ v < S.arr.nNode, l ≤ S.arr.level v → ∀ c ∈ kids S.arr v, (ord l).foldl (fun st v => Function.update st v (f v st)) R c = R c := by
      intro v hv hl c hc
      apply s2
      rw [hmem]
      rintro ⟨_, h⟩
      have := T.childLevel v hv c hc
      omega
    rcases List.mem_append.1 hl with h | h
    · have hgt := hp.2.2 _ h l (by simp)
      rw [s2 v (fun hc => by have := ((hmem l v).1 hc).2; omega), ih hp.1 v hv h]
      exact hf v _ _ (fun c hc => (hkid v hv (by omega) c hc).symm)
    · rw [List.mem_singleton] at h
      rw [s1 v ((hmem l v).2 ⟨hv, h⟩)]
      exact hf v _ _ (fun c hc => (hkid v hv (by omega) c hc).symm)

theorem hss_done {S : Input K} (T : ClusterTree S.arr S.nPoint) (m : Nat) (N : Nat → Nat) (A : Nat → Nat → Nat → K) (fuel : Nat) (ord : Nat → List Nat)
    (hord : ∀ l, (ord l).Perm ((List.range S.arr.nNode).filter (fun v => S.arr.level v = l))) (st : Nat → Res (Slot K)) :
    Done S m (ujNodeAny S N A fuel) (hssSweep S m N A fuel ord st) := by
  intro v hv hl
  refine levels_fold T (f := ujNodeAny S N A fuel) (fun v st st' h => by rw [ujNodeAny_eq]; exact nodeWith_congr h) hord _ st ?_ v hv ?_
  · apply List.Pairwise.filter
    rw [List.pairwise_reverse]
    exact List.pairwise_lt_range
  · rw [List.mem_filter, List.mem_reverse, List.mem_range, decide_eq_true_eq]
    have := T.levelLe v hv
    omega

/-! ## The outcome does not depend on the schedule -/

theorem compress_fuel (S : Input K) (hkd : 0 < S.kdim) (hO : ∀ a b, S.ops.div a b ≠ .diverge) (v : Nat) (jd : Nat → Nat) (jl ncol : Nat) (A : Nat → Nat → K) :
    ∃ F r, r ≠ Res.diverge ∧ (∀ fuel ≥ F, compress S fuel v jd jl ncol A = r) ∧ (S.ops.Total → 0 < jl → r ≠ .ub) := by
  by_cases h0 : jl = 0
  · subst h0
    have hq := H2Pack.ID.idQR_fine (tot := False) (O := S.ops) (fun a b => ⟨hO a b, False.elim⟩) S.sz ncol 0 S.kdim S.stop A (S.env v) (show 0 < 1 by omega)
    refine ⟨1, .ub, by simp, ?_, fun _ h => by omega⟩
    intro fuel hf
    unfold compress
    have : idCompress S.ops S.sz (0 * S.kdim) ncol S.kdim S.stop A true (S.env v) fuel = .ub := by
      rw [Nat.zero_mul]
      unfold idCompress
      rw [H2Pack.ID.idQR_fuel S.sz ncol 0 S.kdim S.stop A (S.env v) (show 0 < fuel by omega) (show 0 < 1 by omega)]
      cases hq' : H2Pack.ID.idQR S.ops S.sz ncol 0 S.kdim S.stop A (S.env v) 1 with
      | ub => rfl
      | diverge => exact absurd hq' hq.1
      | ok q =>
        have hr := (H2Pack.ID.idQR_perm hkd hq').2.1
        obtain ⟨k, rfl⟩ : ∃ k, fuel = k + 1 := ⟨fuel - 1, by omega⟩
        rw [Res.bind_ok]
        dsimp only
        rw [H2Pack.CSR.qsort]
        dsimp only
        rw [if_pos (by omega), Res.bind_ub]
    rw [this, Res.bind_ub]
  · have hn : 1 ≤ jl * S.kdim := Nat.mul_pos (by omega) hkd
    rcases H2Pack.ID.C28_selection S.ops hO S.sz (jl * S.kdim) ncol S.kdim hkd hn S.stop A (S.env v) with ⟨F, hF⟩ | ⟨J, len, U, ⟨F, hF⟩, _⟩
    · refine ⟨F, .ub, by simp, ?_, ?_⟩
      · intro fuel hf
        have := hF fuel hf
        beta_reduce at this
        rw [compress, this, Res.bind_ub]
      · intro hT _
        obtain ⟨J, len, U, ⟨G, hG⟩, _⟩ := H2Pack.ID.C28_returns S.ops hT S.sz (jl * S.kdim) ncol S.kdim hkd hn S.stop A (S.env v)
        have h1 := hF (max F G) (le_max_left _ _)
        have h2 := hG (max F G) (le_max_right _ _)
        rw [h1] at h2; simp at h2
    · refine ⟨F, compress S F v jd jl ncol A, ?_, ?_, ?_⟩
      · have := hF F (le_refl _)
        beta_reduce at this
        rw [compress, this]; simp
      · intro fuel hf
        have h1 := hF F (le_refl _)
        have h2 := hF fuel hf
        beta_reduce at h1 h2
        rw [compress, compress, h1, h2]
      · intro _ _
        have := hF F (le_refl _)
        beta_reduce at this
        rw [compress, this]; simp

/-- The outcomes are determined: for all large enough fuels, the slots are the same however the tasks were scheduled, and no task runs
forever. -/
theorem done_determined {S : Input K} (T : ClusterTree S.arr S.nPoint) (hkd : 0 < S.kdim) (hO : ∀ a b, S.ops.div a b ≠ .diverge) (m : Nat)
    (M : Nat → (Nat → Nat) × Nat × (Nat → K) → Nat × (Nat → Nat → K)) :
    ∃ (F : Nat) (r : Nat → Res (Slot K)), ∀ fuel ≥ F, ∀ st, Done S m (nodeWith S fuel M) st → ∀ v < S.arr.nNode, m ≤ S.arr.level v → st v = r v ∧ r v ≠ .diverge := by
  have key : ∀ n ≤ S.arr.nNode, ∃ (F : Nat) (r : Nat → Res (Slot K)), ∀ fuel ≥ F, ∀ st, Done S m (nodeWith S fuel M) st → ∀ v < n, m ≤ S.arr.level v → st v = r v ∧ r v ≠ .diverge := by
    intro n
    induction n with
    | zero => intro _; exact ⟨0, fun _ => .ub, fun _ _ _ _ v hv => by omega⟩
    | succ n ih =>
      intro hn
      obtain ⟨F, r, h⟩ := ih (by omega)
      by_cases hl : m ≤ S.arr.level n
      swap
      · refine ⟨F, r, fun fuel hf st hd v hv hlv => ?_⟩
        by_cases e : v = n
        · subst e; exact absurd hlv hl
        · exact h fuel hf st hd v (by omega) hlv
      have hcand : ∀ fuel ≥ F, ∀ st, Done S m (nodeWith S fuel M) st → candidates S n st = candidates S n r := by
        intro fuel hf st hd
        apply candidates_congr
        intro c hc
        obtain ⟨a1, a2, a3⟩ := kid_facts T (show n < S.arr.nNode by omega) hl hc
        exact (h fuel hf st hd c a1 a3).1
      have hnd : ∀ fuel ≥ F, ∀ st, Done S m (nodeWith S fuel M) st → candidates S n r ≠ .diverge := by
        intro fuel hf st hd
        unfold candidates
        split
        · simp
        · have : ∀ l : List Nat, (∀ c ∈ l, r c ≠ .diverge) → getSlots r l ≠ .diverge := by
            intro l
            induction l with
            | nil => intro _; simp [getSlots]
            | cons c l ih =>
              intro h
              rw [getSlots]
              have h1 := h c (List.mem_cons_self ..)
              have h2 := ih (fun x hx => h x (List.mem_cons_of_mem _ hx))
              cases hc : r c with
              | diverge => exact absurd hc h1
              | ub => simp
              | ok s =>
                cases hl : getSlots r l with
                | diverge => exact absurd hl h2
                | ub => simp
                | ok s => simp
          have h3 := this (kids S.arr n) (fun c hc => by
            obtain ⟨a1, a2, a3⟩ := kid_facts T (show n < S.arr.nNode by omega) hl hc
            exact (h fuel hf st hd c a1 a3).2)
          cases hg : getSlots r (kids S.arr n) with
          | diverge => exact absurd hg h3
          | ub => simp
          | ok s => simp
      cases hc : candidates S n r with
      | diverge =>
        refine ⟨F, r, fun fuel hf st hd => absurd hc (hnd fuel hf st hd)⟩
      | ub =>
        refine ⟨F, Function.update r n .ub, fun fuel hf st hd v hv hlv => ?_⟩
        by_cases e : v = n
        · subst e
          rw [hd v (by omega) hlv, nodeWith, hcand fuel hf st hd, hc, Function.update_self]
          exact ⟨rfl, by simp⟩
        · rw [Function.update_of_ne e]
          exact h fuel hf st hd v (by omega) hlv
      | ok c =>
        obtain ⟨G, q, hq, hG, _⟩ := compress_fuel S hkd hO n c.1 c.2.1 (M n c).1 (M n c).2
        refine ⟨max F G, Function.update r n q, fun fuel hf st hd v hv hlv => ?_⟩
        have hf1 : F ≤ fuel := le_trans (le_max_left _ _) hf
        have hf2 : G ≤ fuel := le_trans (le_max_right _ _) hf
        by_cases e : v = n
        · subst e
          rw [hd v (by omega) hlv, nodeWith, hcand fuel hf1 st hd, hc, Res.bind_ok, Function.update_self]
          exact ⟨hG fuel hf2, hq⟩
        · rw [Function.update_of_ne e]
          exact h fuel hf1 st hd v (by omega) hlv
  exact key _ (le_refl _)

/-- The slot, or an empty one. -/
def slotOf (st : Nat → Res (Slot K)) (v : Nat) : Slot K :=
  match st v with
  | .ok s => s
  | _ => ⟨fun _ => 0, 0, fun _ => 0, ⟨0, 0, 0, 0, fun _ => 0⟩⟩

theorem compress_mono (S : Input K) (fuel v : Nat) (jd : Nat → Nat) (jl ncol : Nat) (A : Nat → Nat → K) :
    (compress S fuel v jd jl ncol A).Le (compress S (fuel + 1) v jd jl ncol A) := by
  unfold compress
  exact Res.Le.bind (H2Pack.ID.idCompress_mono _ _ _ _ _ _ _ _ _ _) fun _ => .rfl

theorem compress_mono' (S : Input K) (fuel v : Nat) (jd : Nat → Nat) (jl ncol : Nat) (A : Nat → Nat → K) {f : Nat} (hf : fuel ≤ f) :
    (compress S fuel v jd jl ncol A).Le (compress S f v jd jl ncol A) := by
  induction f, hf using Nat.le_induction with
  | base => exact .rfl
  | succ f _ ih => exact ih.trans (compress_mono S f v jd jl ncol A)

/-- When all divisions have results and no skeleton is empty, all nodes get their slots. -/
theorem done_total {S : Input K} (T : ClusterTree S.arr S.nPoint) (hkd : 0 < S.kdim) (hO : S.ops.Total) (m : Nat)
    (M : Nat → (Nat → Nat) × Nat × (Nat → K) → Nat × (Nat → Nat → K)) :
    ∃ F, ∀ fuel ≥ F, ∀ st, Done S m (nodeWith S fuel M) st → (∀ v < S.arr.nNode, m ≤ S.arr.level v → ∀ s, st v = .ok s → 0 < s.jl) →
      ∀ v < S.arr.nNode, m ≤ S.arr.level v → ∃ s, st v = .ok s := by
  have hO' : ∀ a b, S.ops.div a b ≠ .diverge := fun a b => by obtain ⟨c, hc⟩ := hO a b; rw [hc]; simp
  obtain ⟨F, r, h⟩ := done_determined T hkd hO' m M
  refine ⟨F, fun fuel hf st hd hpos v => ?_⟩
  induction v using Nat.strong_induction_on with
  | _ v ih =>
    intro hv hl
    have hk : ∀ c ∈ kids S.arr v, ∃ s, st c = .ok s := fun c hc => by
      obtain ⟨a1, a2, a3⟩ := kid_facts T hv hl hc
      exact ih c a1 a2 a3
    have hcand : ∃ c, candidates S v st = .ok c ∧ 0 < c.2.1 := by
      unfold candidates
      by_cases h0 : S.arr.height v = 0
      · rw [if_pos h0]
        exact ⟨_, rfl, by show 0 < S.arr.ptE v - S.arr.ptS v + 1; omega⟩
      · rw [if_neg h0]
        have hne : S.arr.nChild v ≠ 0 := fun h => h0 (T.leafHeight v hv h)
        have hne' : kids S.arr v ≠ [] := fun h => hne (H2Pack.Part.kids_nil_iff.1 h)
        have hsl : ∀ c ∈ kids S.arr v, st c = .ok (slotOf st c) := by
          intro c hc
          obtain ⟨s, hs⟩ := hk c hc
          rw [slotOf, hs]
        rw [getSlots_ok (sl := slotOf st) _ hsl, Res.bind_ok]
        refine ⟨_, rfl, ?_⟩
        have e := concatJ_spec ((kids S.arr v).map (slotOf st)) (S.junkJ v, 0)
        have e2 := congrArg List.length e
        rw [firstN_length] at e2
        refine Nat.lt_of_lt_of_eq ?_ e2.symm
        rw [List.length_append, List.length_flatMap]
        obtain ⟨c, hc⟩ := List.exists_mem_of_ne_nil _ hne'
        obtain ⟨s, hs⟩ := hk c hc
        obtain ⟨a1, a2, a3⟩ := kid_facts T hv hl hc
        have hp := hpos c a2 a3 s hs
        have : s.pts.length ≤ (List.map (fun a => a.pts.length) ((kids S.arr v).map (slotOf st))).sum := by
          apply List.single_le_sum (by simp)
          rw [List.map_map]
          refine List.mem_map.2 ⟨c, hc, ?_⟩
          simp only [Function.comp, slotOf, hs]
        have hl2 : s.pts.length = s.jl := firstN_length _ _
        omega
    obtain ⟨c, hc, hcp⟩ := hcand
    have e := hd v hv hl
    rw [nodeWith, hc, Res.bind_ok] at e
    obtain ⟨G, q, hq, hG, hT⟩ := compress_fuel S hkd hO' v c.1 c.2.1 (M v c).1 (M v c).2
    have h1 := hG (max fuel G) (le_max_right _ _)
    have hnd := (h fuel hf st hd v hv hl)
    rcases compress_mono' S fuel v c.1 c.2.1 (M v c).1 (M v c).2 (le_max_left fuel G) with h2 | h2
    · rw [h2] at e
      rw [← hnd.1] at hnd
      exact absurd e hnd.2
    · rw [h1, ← e] at h2
      cases q with
      | ok s => exact ⟨s, h2.symm⟩
      | ub => exact absurd rfl (hT hO hcp)
      | diverge => exact absurd rfl hq

/-! ## C50 -/

/-- **C50** (H2).  For every tree, kernel, proxy points, stopping criterion and arithmetic, every number of threads and every schedule of the task
queue: when the construction is finished and every node at `min_adm_level` or below has got its slot, the slots are skeletons. -/
theorem C50_h2_skeletons (S : Input K) (T : ClusterTree S.arr S.nPoint) (hkd : 0 < S.kdim) (hO : ∀ a b, S.ops.div a b ≠ .diverge) {m : Nat} (hm : 1 ≤ m) {fuel P : Nat}
    {c : H2Pack.DAG.Config (Res (Slot K)) P}
    (hx : H2Pack.DAG.Execution (H2Pack.DAG.upwardDAG S.arr.nNode S.arr.level S.arr.parent m) (ujTask S fuel) c) (hP : 0 < P) (hd : ∀ a, c.th a = .done)
    (sl : Nat → Slot K) (hok : ∀ v < S.arr.nNode, m ≤ S.arr.level v → c.res v = .ok (sl v)) :
    ∀ v < S.arr.nNode, m ≤ S.arr.level v → Skeleton S sl v ∧ 0 < (cands S sl v).length := by
  intro v hv hl
  have h := execution_done T hm hx hP hd
  rw [ujNode_eq] at h
  have := done_skeleton T hkd hO h hok v hv hl
  exact ⟨this.1, this.2.1⟩

/-- **C50** (H2, determinism).  The slots (and whether a division without result was met) do not depend on the number of threads or the
schedule, and no task runs forever. -/
theorem C50_h2_determined (S : Input K) (T : ClusterTree S.arr S.nPoint) (hkd : 0 < S.kdim) (hO : ∀ a b, S.ops.div a b ≠ .diverge) {m : Nat} (hm : 1 ≤ m) :
    ∃ (F : Nat) (r : Nat → Res (Slot K)), ∀ fuel ≥ F, ∀ (P : Nat) (c : H2Pack.DAG.Config (Res (Slot K)) P),
      H2Pack.DAG.Execution (H2Pack.DAG.upwardDAG S.arr.nNode S.arr.level S.arr.parent m) (ujTask S fuel) c → 0 < P → (∀ a, c.th a = .done) →
      ∀ v < S.arr.nNode, m ≤ S.arr.level v → c.res v = r v ∧ r v ≠ .diverge := by
  obtain ⟨F, r, h⟩ := done_determined T hkd hO m (fun v c => ((S.pp (S.arr.level v)).1 * S.kdim,
    kmat S.kern S.kdim (point S.xdim (shiftC S v c.2.1 c.2.2) c.2.1) (point S.xdim (S.pp (S.arr.level v)).2 (S.pp (S.arr.level v)).1)))
  refine ⟨F, r, fun fuel hf P c hx hP hd => h fuel hf c.res ?_⟩
  have := execution_done T hm hx hP hd
  rw [ujNode_eq] at this
  exact this

/-- **C50** (H2, IEEE-like arithmetic).  When every division has a result, the construction gives every node its slot unless some node ends up
without any skeleton point. -/
theorem C50_h2_returns (S : Input K) (T : ClusterTree S.arr S.nPoint) (hkd : 0 < S.kdim) (hO : S.ops.Total) {m : Nat} (hm : 1 ≤ m) :
    ∃ F, ∀ fuel ≥ F, ∀ (P : Nat) (c : H2Pack.DAG.Config (Res (Slot K)) P),
      H2Pack.DAG.Execution (H2Pack.DAG.upwardDAG S.arr.nNode S.arr.level S.arr.parent m) (ujTask S fuel) c → 0 < P → (∀ a, c.th a = .done) →
      (∀ v < S.arr.nNode, m ≤ S.arr.level v → ∀ s, c.res v = .ok s → 0 < s.jl) →
      ∀ v < S.arr.nNode, m ≤ S.arr.level v → ∃ s, c.res v = .ok s := by
  obtain ⟨F, h⟩ := done_total T hkd hO m (fun v c => ((S.pp (S.arr.level v)).1 * S.kdim,
    kmat S.kern S.kdim (point S.xdim (shiftC S v c.2.1 c.2.2) c.2.1) (point S.xdim (S.pp (S.arr.level v)).2 (S.pp (S.arr.level v)).1)))
  refine ⟨F, fun fuel hf P c hx hP hd => h fuel hf c.res ?_⟩
  have := execution_done T hm hx hP hd
  rw [ujNode_eq] at this
  exact this

/-- **C50** (HSS).  The same for the level by level construction, with any order of the nodes of a level and any matrices to be compressed. -/
theorem C50_hss_skeletons (S : Input K) (T : ClusterTree S.arr S.nPoint) (hkd : 0 < S.kdim) (hO : ∀ a b, S.ops.div a b ≠ .diverge) (m : Nat) (N : Nat → Nat)
    (A : Nat → Nat → Nat → K) (fuel : Nat) (ord : Nat → List Nat) (hord : ∀ l, (ord l).Perm ((List.range S.arr.nNode).filter (fun v => S.arr.level v = l)))
    (st : Nat → Res (Slot K)) (sl : Nat → Slot K) (hok : ∀ v < S.arr.nNode, m ≤ S.arr.level v → hssSweep S m N A fuel ord st v = .ok (sl v)) :
    ∀ v < S.arr.nNode, m ≤ S.arr.level v → Skeleton S sl v ∧ 0 < (cands S sl v).length := by
  intro v hv hl
  have h := hss_done T m N A fuel ord hord st
  rw [ujNodeAny_eq] at h
  have := done_skeleton T hkd hO h hok v hv hl
  exact ⟨this.1, this.2.1⟩

/-- **C50** (HSS, any order).  For given matrices, the order of the nodes within a level does not matter. -/
theorem C50_hss_determined (S : Input K) (T : ClusterTree S.arr S.nPoint) (hkd : 0 < S.kdim) (hO : ∀ a b, S.ops.div a b ≠ .diverge) (m : Nat) (N : Nat → Nat)
    (A : Nat → Nat → Nat → K) :
    ∃ (F : Nat) (r : Nat → Res (Slot K)), ∀ fuel ≥ F, ∀ (ord : Nat → List Nat), (∀ l, (ord l).Perm ((List.range S.arr.nNode).filter (fun v => S.arr.level v = l))) →
      ∀ st, ∀ v < S.arr.nNode, m ≤ S.arr.level v → hssSweep S m N A fuel ord st v = r v ∧ r v ≠ .diverge := by
  obtain ⟨F, r, h⟩ := done_determined T hkd hO m (fun v _ => (N v, A v))
  refine ⟨F, r, fun fuel hf ord hord st => h fuel hf _ ?_⟩
  have := hss_done T m N A fuel ord hord st
  rw [ujNodeAny_eq] at this
  exact this

end

/-! ## Accuracy on the proxy points, in exact arithmetic -/

section
variable {S : Input ℝ} {sl : Nat → Slot ℝ} {v : Nat}

/-- The matrix that is compressed. -/
theorem kmat_proxy {n : Nat} {L : List Nat} {x : Nat → ℝ} (hL : L.length = n)
    (hx : ∀ d < S.xdim, ∀ k < n, x (d * n + k) = S.coord (d * S.nPoint + L.getD k 0)) {r : Nat} (hr : r < n * S.kdim) (c : Nat) :
    kmat S.kern S.kdim (point S.xdim (shiftC S v n x) n) (point S.xdim (S.pp (S.arr.level v)).2 (S.pp (S.arr.level v)).1) r c =
      proxyVal S v (L.getD (r / S.kdim) 0) (r % S.kdim) c := by
  unfold kmat proxyVal
  congr 1
  funext d
  unfold point relPoint
  by_cases hd : d < S.xdim
  · rw [if_pos hd, if_pos hd]
    have hk : r / S.kdim < n := Nat.div_lt_of_lt_mul (by rw [Nat.mul_comm]; exact hr)
    have hdm := H2Pack.MV.div_mod_row (r := d) hk
    unfold shiftC
    rw [hx d hd _ hk, hdm.1]
    by_cases hp : d < S.ptDim
    · rw [if_pos hp, if_pos]
      have := Nat.mul_le_mul_right n (show d + 1 ≤ S.ptDim by omega)
      rw [Nat.add_mul] at this; omega
    · rw [if_neg hp, if_neg, sub_zero]
      have := Nat.mul_le_mul_right n (show S.ptDim ≤ d by omega)
      omega
  · rw [if_neg hd, if_neg hd]

/-- The errors of the decomposition are those of the interpolation. -/
theorem node_err (T : ClusterTree S.arr S.nPoint) (hkd : 0 < S.kdim) (hO : ∀ a b, S.ops.div a b ≠ .diverge) {fuel : Nat} {st : Nat → Res (Slot ℝ)}
    (hn : ujNode S fuel v st = .ok (sl v)) (hk : ∀ c ∈ kids S.arr v, st c = .ok (sl c) ∧ Skeleton S sl c) :
    0 < (cands S sl v).length ∧ ∃ (A : Nat → Nat → ℝ) (sub : Nat → Nat), Returns (fun fuel => idCompress S.ops S.sz ((cands S sl v).length * S.kdim) (proxyCols S v) S.kdim S.stop A true (S.env v) fuel) ((sub, (sl v).jl), (sl v).U) ∧
      (∀ r < (cands S sl v).length * S.kdim, ∀ c, A r c = proxyVal S v ((cands S sl v).getD (r / S.kdim) 0) (r % S.kdim) c) ∧
      (∀ i < (cands S sl v).length, grpNorm (proxyCols S v) S.kdim A i = pointNorm S v ((cands S sl v).getD i 0)) ∧
      ∀ i < (cands S sl v).length, grpErr (proxyCols S v) S.kdim ((sl v).jl * S.kdim) A (sl v).U.entry (skel S.kdim sub) i = interpErr S sl v i := by
  obtain ⟨jd, x, e1, e2, e3⟩ := candidates_spec (S := S) (st := st) (sl := sl) (v := v) (fun h0 c hc => ⟨(hk c hc).1, (hk c hc).2.coord⟩)
  have h4 := hn
  rw [ujNode, e1, Res.bind_ok] at h4
  dsimp only at h4
  obtain ⟨sub, g1, g2, g3, g4, g5, g6, g7, g8⟩ := compress_spec hkd hO h4
  have hA : ∀ r < (cands S sl v).length * S.kdim, ∀ c, kmat S.kern S.kdim (point S.xdim (shiftC S v (cands S sl v).length x) (cands S sl v).length)
      (point S.xdim (S.pp (S.arr.level v)).2 (S.pp (S.arr.level v)).1) r c = proxyVal S v ((cands S sl v).getD (r / S.kdim) 0) (r % S.kdim) c :=
    fun r hr c => kmat_proxy rfl e3 hr c
  have hrow : ∀ i < (cands S sl v).length, ∀ a < S.kdim, i * S.kdim + a < (cands S sl v).length * S.kdim := by
    intro i hi a ha
    have := Nat.mul_le_mul_right S.kdim (show i + 1 ≤ (cands S sl v).length by omega)
    rw [Nat.add_mul] at this; omega
  have hdiv : (cands S sl v).length * S.kdim / S.kdim = (cands S sl v).length := Nat.mul_div_cancel _ hkd
  refine ⟨g3, _, sub, g1, hA, ?_, ?_⟩
  · intro i hi
    unfold grpNorm pointNorm
    congr 1
    apply sum_congr rfl
    intro a ha
    rw [mem_range] at ha
    apply sum_congr rfl
    intro c _
    rw [hA _ (hrow i hi a ha), (H2Pack.MV.div_mod_row ha).1, (H2Pack.MV.div_mod_row ha).2]
  · intro i hi
    unfold grpErr interpErr H2Pack.ID.rowErr
    congr 1
    apply sum_congr rfl
    intro a ha
    rw [mem_range] at ha
    apply sum_congr rfl
    intro c _
    rw [hA _ (hrow i hi a ha), (H2Pack.MV.div_mod_row ha).1, (H2Pack.MV.div_mod_row ha).2, H2Pack.MV.sum_rows]
    congr 2
    apply sum_congr rfl
    intro k hk
    rw [mem_range] at hk
    apply sum_congr rfl
    intro b hb
    rw [mem_range] at hb
    have hs : sub k < (cands S sl v).length := by have := g2.inRange k hk; rwa [hdiv] at this
    unfold skel
    rw [(H2Pack.MV.div_mod_row hb).1, (H2Pack.MV.div_mod_row hb).2, hA _ (hrow _ hs b hb), (H2Pack.MV.div_mod_row hb).1, (H2Pack.MV.div_mod_row hb).2]
    congr 2
    rw [g7 k hk]
    have h9 := List.getElem_of_eq e2.symm hs
    simp only [List.getD, List.getElem?_eq_getElem hs, Option.getD_some]
    rw [h9]
    simp [firstN]

variable {e f t : ℝ}

theorem real_no_div (hops : S.ops = realOps e f t) : ∀ a b, S.ops.div a b ≠ .diverge := by
  intro a b
  rw [hops]
  show (if b = 0 then Res.ub else Res.ok (a / b)) ≠ _
  split <;> simp

/-- Accuracy, relative criterion, for slots computed after those of the children. -/
theorem done_relative (S : Input ℝ) (he : 0 ≤ e) (hops : S.ops = realOps e f t) (T : ClusterTree S.arr S.nPoint) (hkd : 0 < S.kdim) (tol : ℝ) (hst : S.stop = .rel tol)
    {m : Nat} {fuel : Nat} {st : Nat → Res (Slot ℝ)} (hD : Done S m (ujNode S fuel) st)
    (sl : Nat → Slot ℝ) (hok : ∀ v < S.arr.nNode, m ≤ S.arr.level v → st v = .ok (sl v)) :
    ∀ v < S.arr.nNode, m ≤ S.arr.level v → ∀ i < (cands S sl v).length, ∃ p ∈ cands S sl v,
      interpErr S sl v i ≤ max (Real.sqrt (proxyCols S v : Nat) * e) (tol * Real.sqrt S.kdim) * pointNorm S v p := by
  intro v hv hl i hi
  obtain ⟨h0, A, sub, h1, _, h3, h4⟩ := node_err T hkd (real_no_div hops) (st := st) (fuel := fuel) (sl := sl) (v := v) (by rw [← hD v hv hl]; exact hok v hv hl) (fun k hk => by
    obtain ⟨a1, a2, a3⟩ := kid_facts T hv hl hk
    exact ⟨hok k a2 a3, (done_skeleton T hkd (real_no_div hops) (ujNode_eq S fuel ▸ hD) hok k a2 a3).1⟩)
  have hdiv : (cands S sl v).length * S.kdim / S.kdim = (cands S sl v).length := Nat.mul_div_cancel _ hkd
  rw [hst, hops] at h1
  obtain ⟨j, hj, hh⟩ := H2Pack.ID.C47_relative he S.sz _ (proxyCols S v) S.kdim hkd (Nat.mul_pos h0 hkd) (Dvd.intro_left _ rfl) ⟨_, Nat.mul_comm _ _⟩ tol A (S.env v) sub _ _ h1 i (by rw [hdiv]; exact hi)
  rw [hdiv] at hj
  rw [h4 i hi, h3 j hj] at hh
  refine ⟨_, ?_, hh⟩
  simp [List.getD, hj]

/-- **C50** (accuracy, relative criterion).  In exact arithmetic every candidate of every node is reproduced from the skeleton points with the
coefficients in `U`, on all proxy points, up to the tolerance times the largest norm of a candidate. -/
theorem C50_relative (S : Input ℝ) (he : 0 ≤ e) (hops : S.ops = realOps e f t) (T : ClusterTree S.arr S.nPoint) (hkd : 0 < S.kdim) (tol : ℝ) (hst : S.stop = .rel tol)
    {m : Nat} (hm : 1 ≤ m) {fuel P : Nat} {c : H2Pack.DAG.Config (Res (Slot ℝ)) P}
    (hx : H2Pack.DAG.Execution (H2Pack.DAG.upwardDAG S.arr.nNode S.arr.level S.arr.parent m) (ujTask S fuel) c) (hP : 0 < P) (hd : ∀ a, c.th a = .done)
    (sl : Nat → Slot ℝ) (hok : ∀ v < S.arr.nNode, m ≤ S.arr.level v → c.res v = .ok (sl v)) :
    ∀ v < S.arr.nNode, m ≤ S.arr.level v → ∀ i < (cands S sl v).length, ∃ p ∈ cands S sl v,
      interpErr S sl v i ≤ max (Real.sqrt (proxyCols S v : Nat) * e) (tol * Real.sqrt S.kdim) * pointNorm S v p :=
  done_relative S he hops T hkd tol hst (execution_done T hm hx hP hd) sl hok

/-- Accuracy, absolute criterion, for slots computed after those of the children. -/
theorem done_absolute (S : Input ℝ) (he : 0 ≤ e) (hops : S.ops = realOps e f t) (T : ClusterTree S.arr S.nPoint) (hkd : 0 < S.kdim) (tol : ℝ) (hst : S.stop = .abs tol)
    {m : Nat} {fuel : Nat} {st : Nat → Res (Slot ℝ)} (hD : Done S m (ujNode S fuel) st)
    (sl : Nat → Slot ℝ) (hok : ∀ v < S.arr.nNode, m ≤ S.arr.level v → st v = .ok (sl v)) :
    ∀ v < S.arr.nNode, m ≤ S.arr.level v → ∀ i < (cands S sl v).length, interpErr S sl v i ≤ max (Real.sqrt (proxyCols S v : Nat) * e) tol := by
  intro v hv hl i hi
  obtain ⟨h0, A, sub, h1, _, h3, h4⟩ := node_err T hkd (real_no_div hops) (st := st) (fuel := fuel) (sl := sl) (v := v) (by rw [← hD v hv hl]; exact hok v hv hl) (fun k hk => by
    obtain ⟨a1, a2, a3⟩ := kid_facts T hv hl hk
    exact ⟨hok k a2 a3, (done_skeleton T hkd (real_no_div hops) (ujNode_eq S fuel ▸ hD) hok k a2 a3).1⟩)
  have hdiv : (cands S sl v).length * S.kdim / S.kdim = (cands S sl v).length := Nat.mul_div_cancel _ hkd
  rw [hst, hops] at h1
  have hh := H2Pack.ID.C47_absolute he S.sz _ (proxyCols S v) S.kdim hkd (Nat.mul_pos h0 hkd) (Dvd.intro_left _ rfl) ⟨_, Nat.mul_comm _ _⟩ tol A (S.env v) sub _ _ h1 i (by rw [hdiv]; exact hi)
  rw [h4 i hi] at hh
  exact hh

/-- **C50** (accuracy, absolute criterion). -/
theorem C50_absolute (S : Input ℝ) (he : 0 ≤ e) (hops : S.ops = realOps e f t) (T : ClusterTree S.arr S.nPoint) (hkd : 0 < S.kdim) (tol : ℝ) (hst : S.stop = .abs tol)
    {m : Nat} (hm : 1 ≤ m) {fuel P : Nat} {c : H2Pack.DAG.Config (Res (Slot ℝ)) P}
    (hx : H2Pack.DAG.Execution (H2Pack.DAG.upwardDAG S.arr.nNode S.arr.level S.arr.parent m) (ujTask S fuel) c) (hP : 0 < P) (hd : ∀ a, c.th a = .done)
    (sl : Nat → Slot ℝ) (hok : ∀ v < S.arr.nNode, m ≤ S.arr.level v → c.res v = .ok (sl v)) :
    ∀ v < S.arr.nNode, m ≤ S.arr.level v → ∀ i < (cands S sl v).length, interpErr S sl v i ≤ max (Real.sqrt (proxyCols S v : Nat) * e) tol :=
  done_absolute S he hops T hkd tol hst (execution_done T hm hx hP hd) sl hok

/-- A candidate that interacts with the proxy points forces a nonempty skeleton. -/
theorem rank_pos (he : 0 ≤ e) (hops : S.ops = realOps e f t) (T : ClusterTree S.arr S.nPoint) (hkd : 0 < S.kdim) {tol : ℝ} (hst : S.stop = .rel tol)
    (hq : max (Real.sqrt (proxyCols S v : Nat) * e) (tol * Real.sqrt S.kdim) < 1) {fuel : Nat} {st : Nat → Res (Slot ℝ)}
    (hn : ujNode S fuel v st = .ok (sl v)) (hk : ∀ c ∈ kids S.arr v, st c = .ok (sl c) ∧ Skeleton S sl c)
    (hnz : ∃ p ∈ cands S sl v, pointNorm S v p ≠ 0) : 0 < (sl v).jl := by
  obtain ⟨h0, A, sub, h1, _, h3, h4⟩ := node_err T hkd (real_no_div hops) hn hk
  have hdiv : (cands S sl v).length * S.kdim / S.kdim = (cands S sl v).length := Nat.mul_div_cancel _ hkd
  by_contra hc
  have hz : (sl v).jl = 0 := by omega
  rw [hst, hops] at h1
  have hh := H2Pack.ID.C47_relative he S.sz _ (proxyCols S v) S.kdim hkd (Nat.mul_pos h0 hkd) (Dvd.intro_left _ rfl) ⟨_, Nat.mul_comm _ _⟩ tol A (S.env v) sub _ _ h1
  have hE : ∀ i < (cands S sl v).length, interpErr S sl v i = pointNorm S v ((cands S sl v).getD i 0) := by
    intro i hi
    unfold interpErr pointNorm
    rw [hz]
    simp
  obtain ⟨p, hp, hnp⟩ := hnz
  obtain ⟨i0, hi0, hp0⟩ := List.getElem_of_mem hp
  obtain ⟨i, hi, hmax⟩ := Finset.exists_max_image (range (cands S sl v).length) (fun i => pointNorm S v ((cands S sl v).getD i 0)) ⟨0, mem_range.2 h0⟩
  rw [mem_range] at hi
  obtain ⟨j, hj, hle⟩ := hh i (by rw [hdiv]; exact hi)
  rw [hdiv] at hj
  rw [h4 i hi, h3 j hj, hE i hi] at hle
  have hmj := hmax j (mem_range.2 hj)
  have hm0 := hmax i0 (mem_range.2 hi0)
  have e0 : pointNorm S v ((cands S sl v).getD i0 0) = pointNorm S v p := by
    congr 1; simp [List.getD, hi0, hp0]
  beta_reduce at hmj hm0
  rw [e0] at hm0
  have hpos : 0 < pointNorm S v p := lt_of_le_of_ne (Real.sqrt_nonneg _) (Ne.symm hnp)
  generalize pointNorm S v ((cands S sl v).getD i 0) = x at *
  generalize pointNorm S v ((cands S sl v).getD j 0) = y at *
  have hq0 : 0 ≤ max (Real.sqrt (proxyCols S v : Nat) * e) (tol * Real.sqrt S.kdim) := le_trans (mul_nonneg (Real.sqrt_nonneg _) he) (le_max_left _ _)
  generalize max (Real.sqrt (proxyCols S v : Nat) * e) (tol * Real.sqrt S.kdim) = q at *
  have h5 : q * y ≤ q * x := mul_le_mul_of_nonneg_left hmj hq0
  have h6 : q * x < x := by nlinarith
  linarith

/-- **C50** (nonempty skeletons).  With a relative tolerance below one, a node has at least one skeleton point as soon as one of its candidates interacts
with the proxy points. -/
theorem C50_nonempty (S : Input ℝ) (he : 0 ≤ e) (hops : S.ops = realOps e f t) (T : ClusterTree S.arr S.nPoint) (hkd : 0 < S.kdim) (tol : ℝ) (hst : S.stop = .rel tol)
    {m : Nat} (hm : 1 ≤ m) {fuel P : Nat} {c : H2Pack.DAG.Config (Res (Slot ℝ)) P}
    (hx : H2Pack.DAG.Execution (H2Pack.DAG.upwardDAG S.arr.nNode S.arr.level S.arr.parent m) (ujTask S fuel) c) (hP : 0 < P) (hd : ∀ a, c.th a = .done)
    (sl : Nat → Slot ℝ) (hok : ∀ v < S.arr.nNode, m ≤ S.arr.level v → c.res v = .ok (sl v)) :
    ∀ v < S.arr.nNode, m ≤ S.arr.level v → max (Real.sqrt (proxyCols S v : Nat) * e) (tol * Real.sqrt S.kdim) < 1 →
      (∃ p ∈ cands S sl v, pointNorm S v p ≠ 0) → 0 < (sl v).jl := by
  intro v hv hl hq hnz
  have hD := execution_done T hm hx hP hd
  refine rank_pos he hops T hkd hst hq (st := c.res) (fuel := fuel) (sl := sl) (v := v) (by rw [← hD v hv hl]; exact hok v hv hl) (fun k hk => ?_) hnz
  obtain ⟨a1, a2, a3⟩ := kid_facts T hv hl hk
  exact ⟨hok k a2 a3, (C50_h2_skeletons S T hkd (real_no_div hops) hm hx hP hd sl hok k a2 a3).1⟩

/-- Scalar kernels, for slots computed after those of the children. -/
theorem done_scalar (S : Input ℝ) (he : 0 ≤ e) (hops : S.ops = realOps e f t) (T : ClusterTree S.arr S.nPoint) (hkd : S.kdim = 1) (tol : ℝ) (htol : 0 < tol) (hst : S.stop = .rel tol)
    {m : Nat} (hq : ∀ v < S.arr.nNode, m ≤ S.arr.level v → max (Real.sqrt (proxyCols S v : Nat) * e) tol < 1)
    (hnz : ∀ v < S.arr.nNode, m ≤ S.arr.level v → ∀ p, S.arr.ptS v ≤ p → p ≤ S.arr.ptE v → ∃ c < proxyCols S v, proxyVal S v p 0 c ≠ 0)
    {fuel : Nat} {st : Nat → Res (Slot ℝ)} (hD : Done S m (ujNode S fuel) st) (hdet : ∀ v < S.arr.nNode, m ≤ S.arr.level v → st v ≠ .diverge) :
    ∃ sl : Nat → Slot ℝ, ∀ v < S.arr.nNode, m ≤ S.arr.level v → st v = .ok (sl v) ∧ Skeleton S sl v ∧ 0 < (sl v).jl := by
  have hkd' : 0 < S.kdim := by omega
  refine ⟨slotOf st, fun v => ?_⟩
  induction v using Nat.strong_induction_on with
  | _ v ih =>
    intro hv hl
    have hk : ∀ k ∈ kids S.arr v, st k = .ok (slotOf st k) ∧ Skeleton S (slotOf st) k ∧ 0 < (slotOf st k).jl := fun k hk => by
      obtain ⟨a1, a2, a3⟩ := kid_facts T hv hl hk
      exact ih k a1 a2 a3
    obtain ⟨jd, x, e1, e2, e3⟩ := candidates_spec (S := S) (st := st) (sl := slotOf st) (v := v) (fun h0 k h => ⟨(hk k h).1, (hk k h).2.1.coord⟩)
    have hcl := (cands_inc T hv (sl := slotOf st) (fun _ k h => (hk k h).2.1)).2
    have hpos : 0 < (cands S (slotOf st) v).length := by
      unfold cands
      by_cases h0 : S.arr.height v = 0
      · rw [if_pos h0, List.length_range']; omega
      · rw [if_neg h0]
        have hne : S.arr.nChild v ≠ 0 := fun h => h0 (T.leafHeight v hv h)
        have hne' : kids S.arr v ≠ [] := fun h => hne (H2Pack.Part.kids_nil_iff.1 h)
        obtain ⟨k, hkm⟩ := List.exists_mem_of_ne_nil _ hne'
        have := (hk k hkm).2.2
        apply List.length_pos_of_mem (a := (slotOf st k).jd 0)
        refine List.mem_flatMap.2 ⟨k, hkm, List.mem_map.2 ⟨0, List.mem_range.2 this, rfl⟩⟩
    have hp0 := hcl _ (List.getElem_mem hpos)
    obtain ⟨q, hq1, hq2⟩ := hnz v hv hl _ hp0.1 hp0.2
    have hev := hD v hv hl
    have e' := hev
    rw [ujNode, e1, Res.bind_ok] at e'
    dsimp only at e'
    have hA : kmat S.kern S.kdim (point S.xdim (shiftC S v (cands S (slotOf st) v).length x) (cands S (slotOf st) v).length)
      (point S.xdim (S.pp (S.arr.level v)).2 (S.pp (S.arr.level v)).1) 0 q ≠ 0 := by
      rw [kmat_proxy rfl e3 (Nat.mul_pos hpos hkd'), Nat.zero_div, Nat.zero_mod]
      simpa [List.getD, hpos] using hq2
    have hret : ∃ G y, ∀ fuel ≥ G, compress S fuel v jd (cands S (slotOf st) v).length ((S.pp (S.arr.level v)).1 * S.kdim)
        (kmat S.kern S.kdim (point S.xdim (shiftC S v (cands S (slotOf st) v).length x) (cands S (slotOf st) v).length)
      (point S.xdim (S.pp (S.arr.level v)).2 (S.pp (S.arr.level v)).1)) = .ok y := by
      have := H2Pack.ID.C47_relative_returns (e := e) (f := f) (t := t) S.sz ((cands S (slotOf st) v).length * S.kdim) ((S.pp (S.arr.level v)).1 * S.kdim) (Nat.mul_pos hpos hkd') tol htol _ (S.env v)
        ⟨0, Nat.mul_pos hpos hkd', q, hq1, hA⟩
      obtain ⟨J, len, U, G, hG⟩ := this
      refine ⟨G, ⟨chooseJ J len jd, len, H2Pack.MV.gatherCols S.xdim len (chooseJ J len jd) S.coord S.nPoint (S.junkC v) len, U⟩, fun fuel hf => ?_⟩
      have := hG fuel hf
      beta_reduce at this
      unfold compress
      rw [hops, hst]
      rw [hkd] at this ⊢
      rw [this]
      rfl
    obtain ⟨G, y, hG⟩ := hret
    have hok : st v = .ok y := by
      rcases compress_mono' S fuel v jd (cands S (slotOf st) v).length ((S.pp (S.arr.level v)).1 * S.kdim)
        (kmat S.kern S.kdim (point S.xdim (shiftC S v (cands S (slotOf st) v).length x) (cands S (slotOf st) v).length)
          (point S.xdim (S.pp (S.arr.level v)).2 (S.pp (S.arr.level v)).1)) (le_max_left fuel G) with h2 | h2
      · rw [h2] at e'
        exact absurd e' (hdet v hv hl)
      · rw [hG _ (le_max_right _ _)] at h2
        rw [e', ← h2]
    have hsl : st v = .ok (slotOf st v) := by rw [slotOf, hok]
    have hsk := skeleton_of T hkd' (real_no_div hops) hv (sl := slotOf st) (st := st) (fun _ k h => ⟨(hk k h).1, (hk k h).2.1⟩) e1 (by rw [← hsl]; exact e'.symm)
    refine ⟨hsl, hsk.1, ?_⟩
    refine rank_pos he hops T hkd' hst ?_ (st := st) (fuel := fuel) (sl := slotOf st) (v := v) (by rw [← hev]; exact hsl) (fun k h => ⟨(hk k h).1, (hk k h).2.1⟩) ?_
    · have := hq v hv hl
      rw [hkd]
      simpa using this
    · refine ⟨_, List.getElem_mem hpos, ?_⟩
      unfold pointNorm
      rw [hkd]
      intro hz
      rw [Real.sqrt_eq_zero (sum_nonneg fun a _ => sum_nonneg fun c _ => sq_nonneg _), sum_range_one] at hz
      have := (sum_eq_zero_iff_of_nonneg (fun c _ => sq_nonneg _)).1 hz q (mem_range.2 hq1)
      exact hq2 (pow_eq_zero_iff (by norm_num) |>.1 this)

/-- **C50** (scalar kernels).  For a scalar kernel that does not vanish on all proxy points of a level and a relative tolerance below one, the
construction succeeds in exact arithmetic for every tree, number of threads and schedule; every node has at least one skeleton
point. -/
theorem C50_scalar (S : Input ℝ) (he : 0 ≤ e) (hops : S.ops = realOps e f t) (T : ClusterTree S.arr S.nPoint) (hkd : S.kdim = 1) (tol : ℝ) (htol : 0 < tol) (hst : S.stop = .rel tol)
    {m : Nat} (hm : 1 ≤ m)
    (hq : ∀ v < S.arr.nNode, m ≤ S.arr.level v → max (Real.sqrt (proxyCols S v : Nat) * e) tol < 1)
    (hnz : ∀ v < S.arr.nNode, m ≤ S.arr.level v → ∀ p, S.arr.ptS v ≤ p → p ≤ S.arr.ptE v → ∃ c < proxyCols S v, proxyVal S v p 0 c ≠ 0) :
    ∃ F, ∀ fuel ≥ F, ∀ (P : Nat) (c : H2Pack.DAG.Config (Res (Slot ℝ)) P),
      H2Pack.DAG.Execution (H2Pack.DAG.upwardDAG S.arr.nNode S.arr.level S.arr.parent m) (ujTask S fuel) c → 0 < P → (∀ a, c.th a = .done) →
      ∃ sl : Nat → Slot ℝ, ∀ v < S.arr.nNode, m ≤ S.arr.level v → c.res v = .ok (sl v) ∧ Skeleton S sl v ∧ 0 < (sl v).jl := by
  obtain ⟨F, r, h⟩ := C50_h2_determined S T (by omega) (real_no_div hops) hm
  refine ⟨F, fun fuel hf P c hx hP hd => done_scalar S he hops T hkd tol htol hst hq hnz (execution_done T hm hx hP hd) (fun v hv hl => ?_)⟩
  have := h fuel hf P c hx hP hd v hv hl
  rw [this.1]; exact this.2

end

end H2Pack.UJ
