import Verif.Proof.ULV8
import Mathlib.Algebra.BigOperators.Group.List.Basic
import Mathlib.Algebra.Group.Commute.Basic

/-! # The sweeps of the solves -/

set_option linter.unusedSectionVars false

namespace H2Pack.ULV
open Matrix
open H2Pack.MV
open H2Pack.Part (Arr kids ClusterTree Desc)

section
variable {K : Type} [Field K] {R : Rep K} {shift : K}

/-! ## One node -/

theorem scatter_out (idx : List Nat) (x0 x : Nat → K) (r : Nat) (h : ∀ k < idx.length, r ≠ idx.getD k 0) : scatter idx x0 x r = x r := by
  unfold scatter
  have : ∀ n ≤ idx.length, ((List.range n).foldl (fun x k => Function.update x (idx.getD k 0) (x0 k)) x) r = x r := by
    intro n hn
    induction n with
    | zero => rfl
    | succ n ih =>
      rw [List.range_succ, List.foldl_append, List.foldl_cons, List.foldl_nil, Function.update_of_ne (h n (by omega)), ih (by omega)]
  exact this _ le_rfl

theorem scatter_in (idx : List Nat) (x0 x : Nat → K) (hi : ∀ k < idx.length, ∀ l < idx.length, idx.getD k 0 = idx.getD l 0 → k = l)
    {k : Nat} (hk : k < idx.length) : scatter idx x0 x (idx.getD k 0) = x0 k := by
  unfold scatter
  have : ∀ n ≤ idx.length, k < n → ((List.range n).foldl (fun x k => Function.update x (idx.getD k 0) (x0 k)) x) (idx.getD k 0) = x0 k := by
    intro n hn hkn
    induction n with
    | zero => omega
    | succ n ih =>
      rw [List.range_succ, List.foldl_append, List.foldl_cons, List.foldl_nil]
      by_cases e : k = n
      · rw [e, Function.update_self]
      · rw [Function.update_of_ne (fun h => e (hi k hk n (by omega) h)), ih (by omega) (by omega)]
  exact this _ le_rfl hk

/-- The part of a vector that belongs to the matrix. -/
def vec (R : Rep K) (x : Nat → K) : Fin R.size → K := fun r => x r

theorem node_apply (H : HSS R) {X : Data R} (hX : X.Ok shift) {v : Nat} (hv : v < R.arr.nNode) {idx : List Nat} (hlen : idx.length = nn R v + X.dd v)
    (hix : ∀ k, X.ix v k = idx.getD k 0) (g : Matrix (Ix (nn R v) (X.dd v)) (Ix (nn R v) (X.dd v)) K) (loc : (Nat → K) → Nat → K)
    (hloc : ∀ (x : Nat → K) (i : Ix (nn R v) (X.dd v)), loc x (pos i) = (g *ᵥ fun j => x (pos j)) i) (x : Nat → K) :
    vec R (scatter idx (loc fun k => x (idx.getD k 0)) x) = lift R.size (X.ixf v) g *ᵥ vec R x ∧
    ∀ r, R.size ≤ r → scatter idx (loc fun k => x (idx.getD k 0)) x r = x r := by
  have hinj := hX.ixf_inj H hv
  have hlt := hX.ixf_lt H hv
  obtain ⟨h1, h2⟩ := lift_mulVec hinj hlt g (vec R x)
  have hi : ∀ k < idx.length, ∀ l < idx.length, idx.getD k 0 = idx.getD l 0 → k = l := by
    intro k hk l hl e
    rw [hlen] at hk hl
    exact (hX.ix_spec H v hv).2 k hk l hl (by rw [hix, hix, e])
  have hixf : ∀ i, X.ixf v i = idx.getD (pos i) 0 := fun i => hix _
  refine ⟨?_, ?_⟩
  · funext r
    by_cases hr : ∃ i, (r : Nat) = X.ixf v i
    · obtain ⟨i, e⟩ := hr
      have er : r = ⟨X.ixf v i, hlt i⟩ := Fin.ext e
      rw [er, h1 i]
      show scatter _ _ _ (X.ixf v i) = _
      rw [hixf i, scatter_in idx _ x hi (by rw [hlen]; exact pos_lt i), hloc]
      congr 1
      funext j
      show x _ = x _
      rw [← hixf j]
    · push Not at hr
      rw [h2 r hr]
      apply scatter_out
      intro k hk e
      rw [hlen] at hk
      obtain ⟨i, rfl⟩ := pos_surj hk
      exact hr i (by rw [hixf]; exact e)
  · intro r hr
    apply scatter_out
    intro k hk e
    rw [hlen] at hk
    obtain ⟨i, rfl⟩ := pos_surj hk
    have := hlt i
    rw [hixf, ← e] at this
    omega

/-! ## A sweep -/

/-- The nodes have been factorized with the data `X`; `loc` is the local operation `M`. -/
structure Local (X : Data R) (fac : Nat → Option (NodeFac K)) (loc : Nat → NodeFac K → (Nat → K) → Nat → K)
    (M : ∀ v, Matrix (Ix (nn R v) (X.dd v)) (Ix (nn R v) (X.dd v)) K) : Prop where
  fac : ∀ v < R.arr.nNode, ∃ f, fac v = some f ∧ f.idx.length = nn R v + X.dd v ∧ (∀ k, X.ix v k = f.idx.getD k 0) ∧
    ∀ (x : Nat → K) (i : Ix (nn R v) (X.dd v)), loc v f x (pos i) = (M v *ᵥ fun j => x (pos j)) i

theorem Local.sweep {X : Data R} {fac : Nat → Option (NodeFac K)} {loc : Nat → NodeFac K → (Nat → K) → Nat → K}
    {M : ∀ v, Matrix (Ix (nn R v) (X.dd v)) (Ix (nn R v) (X.dd v)) K} (hl : Local X fac loc M) (H : HSS R) (hX : X.Ok shift)
    (L : List Nat) (hL : ∀ v ∈ L, v < R.arr.nNode) (x : Nat → K) :
    ∃ y, loop (fun x v => applyNode (loc v) fac x v) L x = .ok y ∧
      vec R y = L.foldl (fun A v => lift R.size (X.ixf v) (M v) * A) 1 *ᵥ vec R x ∧ ∀ r, R.size ≤ r → y r = x r := by
  induction L using List.reverseRecOn with
  | nil => exact ⟨x, rfl, by simp, fun _ _ => rfl⟩
  | append_singleton L v ih =>
    obtain ⟨y, e, h1, h2⟩ := ih (fun w hw => hL w (by simp [hw]))
    have hv := hL v (by simp)
    obtain ⟨f, hf, hlen, hix, hloc⟩ := hl.fac v hv
    rw [loop_snoc, e]
    change ∃ z, applyNode (loc v) fac y v = .ok z ∧ _
    unfold applyNode
    rw [hf]
    obtain ⟨a1, a2⟩ := node_apply H hX hv hlen hix (M v) (loc v f) hloc y
    refine ⟨_, rfl, ?_, fun r hr => ?_⟩
    · rw [a1, h1, Matrix.mulVec_mulVec, List.foldl_append]
      rfl
    · rw [a2 r hr, h2 r hr]

theorem loop_congr {σ α : Type} {f g : σ → α → Res σ} : ∀ (l : List α), (∀ x ∈ l, ∀ s, f s x = g s x) → ∀ s, loop f l s = loop g l s := by
  intro l
  induction l with
  | nil => intro _ s; rfl
  | cons x l ih =>
    intro h s
    unfold loop
    rw [h x (by simp) s]
    cases g s x with
    | ok t => exact ih (fun y hy => h y (by simp [hy])) t
    | ub => rfl
    | diverge => rfl

theorem loop_map {σ α β : Type} (f : σ → β → Res σ) (k : α → β) (l : List α) (s : σ) : loop f (l.map k) s = loop (fun s x => f s (k x)) l s := by
  induction l generalizing s with
  | nil => rfl
  | cons x l ih =>
    rw [List.map_cons]
    unfold loop
    cases f s (k x) with
    | ok t => exact ih t
    | ub => rfl
    | diverge => rfl

theorem loop_append {σ α : Type} (f : σ → α → Res σ) (l m : List α) (s : σ) : loop f (l ++ m) s = (do let t ← loop f l s; loop f m t) := by
  induction l generalizing s with
  | nil => rfl
  | cons x l ih =>
    simp only [List.cons_append, loop]
    cases f s x with
    | ok t => exact ih t
    | ub => rfl
    | diverge => rfl

/-! ## Orders -/

/-- The nodes of the up order. -/
def upNodes (R : Rep K) (ord : Nat → List Nat) : List Nat := (List.range (R.arr.maxLevel + 1)).reverse.flatMap ord

theorem upOrder_nodes (ord : Nat → List Nat) : (upOrder R ord).map Prod.snd = upNodes R ord := by
  unfold upOrder upNodes
  rw [List.map_flatMap]
  congr 1
  funext l
  rw [List.map_map]
  exact List.map_id _

theorem downOrder_nodes (ord : Nat → List Nat) : (downOrder R ord).map Prod.snd = (upNodes R fun l => (ord l).reverse).reverse := by
  unfold downOrder upNodes
  rw [List.reverse_flatMap, List.reverse_reverse, List.map_flatMap]
  congr 1
  funext l
  simp [List.map_map]

theorem Order.mem {ord : Nat → List Nat} (ho : Order R ord) (H : HSS R) {l v : Nat} : v ∈ ord l ↔ v < R.arr.nNode ∧ R.arr.level v = l := by
  rw [(ho l).mem_iff, mem_levelList H.wf]

theorem Order.nodup {ord : Nat → List Nat} (ho : Order R ord) (H : HSS R) (l : Nat) : (ord l).Nodup :=
  (ho l).nodup_iff.2 (levelList_nodup H.wf l)

theorem Order.reverse {ord : Nat → List Nat} (ho : Order R ord) : Order R fun l => (ord l).reverse :=
  fun l => (List.reverse_perm _).trans (ho l)

theorem upOrder_level {ord : Nat → List Nat} (ho : Order R ord) (H : HSS R) : ∀ x ∈ upOrder R ord, x.1 = R.arr.level x.2 := by
  intro x hx
  unfold upOrder at hx
  obtain ⟨l, _, hx⟩ := List.mem_flatMap.1 hx
  obtain ⟨v, hv, rfl⟩ := List.mem_map.1 hx
  exact ((ho.mem H).1 hv).2.symm

theorem downOrder_level {ord : Nat → List Nat} (ho : Order R ord) (H : HSS R) : ∀ x ∈ downOrder R ord, x.1 = R.arr.level x.2 := by
  intro x hx
  unfold downOrder at hx
  obtain ⟨l, _, hx⟩ := List.mem_flatMap.1 hx
  obtain ⟨v, hv, rfl⟩ := List.mem_map.1 hx
  exact ((ho.mem H).1 hv).2.symm

theorem upNodes_mem {ord : Nat → List Nat} (ho : Order R ord) (H : HSS R) {v : Nat} : v ∈ upNodes R ord ↔ v < R.arr.nNode := by
  unfold upNodes
  rw [List.mem_flatMap]
  constructor
  · rintro ⟨l, _, hv⟩
    exact ((ho.mem H).1 hv).1
  · intro hv
    exact ⟨R.arr.level v, by simp; have := H.wf.tree.levelLe v hv; omega, (ho.mem H).2 ⟨hv, rfl⟩⟩

theorem topo_append {L M : List Nat} (hL : Topo R L) (hM : M.Nodup) (hv : ∀ v ∈ M, v < R.arr.nNode ∧ v ∉ L ∧ ∀ c ∈ kids R.arr v, c ∈ L) :
    Topo R (L ++ M) := by
  induction M using List.reverseRecOn with
  | nil => simpa using hL
  | append_singleton M v ih =>
    rw [← List.append_assoc]
    rw [List.nodup_append] at hM
    obtain ⟨h1, h2, h3⟩ := hv v (by simp)
    refine .snoc (ih hM.1 (fun w hw => hv w (by simp [hw]))) h1 ?_ (fun c hc => List.mem_append_left _ (h3 c hc))
    rw [List.mem_append]
    rintro (h | h)
    · exact h2 h
    · exact hM.2.2 v h v (by simp) rfl

theorem upNodes_topo {ord : Nat → List Nat} (ho : Order R ord) (H : HSS R) : Topo R (upNodes R ord) := by
  -- the levels from `maxLevel` down to `m`
  have key : ∀ n, Topo R ((List.range' (R.arr.maxLevel + 1 - n) n).reverse.flatMap ord) := by
    intro n
    induction n with
    | zero => exact .nil
    | succ n ih =>
      by_cases hn : n < R.arr.maxLevel + 1
      · obtain ⟨s, hs⟩ : ∃ s, R.arr.maxLevel + 1 - (n + 1) = s := ⟨_, rfl⟩
        have e : List.range' (R.arr.maxLevel + 1 - (n + 1)) (n + 1) = s :: List.range' (R.arr.maxLevel + 1 - n) n := by
          rw [hs, List.range'_succ]
          congr 2
          omega
        rw [e, List.reverse_cons, List.flatMap_append, List.flatMap_singleton]
        apply topo_append ih (ho.nodup H s)
        intro v hv
        obtain ⟨h1, h2⟩ := (ho.mem H).1 hv
        refine ⟨h1, ?_, ?_⟩
        · intro hc
          obtain ⟨l, hl, hc⟩ := List.mem_flatMap.1 hc
          have := ((ho.mem H).1 hc).2
          simp only [List.mem_reverse, List.mem_range'_1] at hl
          omega
        · intro c hc
          have hl := H.wf.tree.childLevel v h1 c hc
          have hcn := H.wf.tree.kid_lt h1 hc
          have := H.wf.tree.levelLe c hcn
          refine List.mem_flatMap.2 ⟨R.arr.level c, ?_, (ho.mem H).2 ⟨hcn, rfl⟩⟩
          simp only [List.mem_reverse, List.mem_range'_1]
          omega
      · rw [show R.arr.maxLevel + 1 - (n + 1) = R.arr.maxLevel + 1 - n by omega, List.range'_concat]
        rw [List.reverse_append, List.flatMap_append]
        have : (ord (R.arr.maxLevel + 1 - n + 1 * n)) = [] := by
          rw [List.eq_nil_iff_forall_not_mem]
          intro v hv
          obtain ⟨h1, h2⟩ := (ho.mem H).1 hv
          have := H.wf.tree.levelLe v h1
          omega
        simp only [List.reverse_singleton, List.flatMap_singleton, this, List.nil_append]
        exact ih
  have := key (R.arr.maxLevel + 1)
  rw [Nat.sub_self, ← List.range_eq_range'] at this
  exact this

/-! ## Nodes of a level commute -/

theorem lift_commute {N : Nat} {ι κ : Type} [Fintype ι] [DecidableEq ι] [Fintype κ] [DecidableEq κ] {f : ι → Nat} {g : κ → Nat} (h : ∀ i j, f i ≠ g j)
    (A : Matrix ι ι K) (B : Matrix κ κ K) : lift N f A * lift N g B = lift N g B * lift N f A := by
  have z1 : (Sel K N f)ᵀ * Sel K N g = 0 := sel_disj h
  have z2 : (Sel K N g)ᵀ * Sel K N f = 0 := sel_disj (fun i j e => h j i e.symm)
  unfold lift
  rw [Matrix.add_mul, Matrix.add_mul, Matrix.mul_add, Matrix.mul_add, Matrix.mul_add, Matrix.mul_add]
  have e1 : Sel K N f * (A - 1) * (Sel K N f)ᵀ * (Sel K N g * (B - 1) * (Sel K N g)ᵀ) = 0 := by
    rw [Matrix.mul_assoc _ (Sel K N f)ᵀ, ← Matrix.mul_assoc (Sel K N f)ᵀ, ← Matrix.mul_assoc (Sel K N f)ᵀ, z1]
    simp
  have e2 : Sel K N g * (B - 1) * (Sel K N g)ᵀ * (Sel K N f * (A - 1) * (Sel K N f)ᵀ) = 0 := by
    rw [Matrix.mul_assoc _ (Sel K N g)ᵀ, ← Matrix.mul_assoc (Sel K N g)ᵀ, ← Matrix.mul_assoc (Sel K N g)ᵀ, z2]
    simp
  rw [e1, e2]
  simp only [Matrix.one_mul, Matrix.mul_one]
  abel

theorem hl_commute (H : HSS R) {X : Data R} (hX : X.Ok shift) {u v : Nat} (hu : u < R.arr.nNode) (hv : v < R.arr.nNode) (hne : u ≠ v)
    (hl : R.arr.level u = R.arr.level v) : Commute (X.hl u) (X.hl v) := by
  apply lift_commute
  intro i j e
  have h1 := hX.ixf_row H hu i
  have h2 := hX.ixf_row H hv j
  rw [← e] at h2
  have lev : ∀ {a b : Nat}, Desc R.arr a b → b < R.arr.nNode → a ≠ b → R.arr.level b < R.arr.level a := by
    intro a b d
    induction d with
    | refl => intro _ h; exact absurd rfl h
    | @step c b' hc d ih =>
      intro hb _
      have l1 := H.wf.tree.childLevel _ hb _ hc
      by_cases e : a = c
      · rw [e]; omega
      · have := ih (H.wf.tree.kid_lt hb hc) e
        omega
  rcases comparable H.wf hu hv h1 h2 with d | d
  · have := lev d hv hne; omega
  · have := lev d hu (Ne.symm hne); omega

theorem H_prod (X : Data R) (L : List Nat) : X.H L = (L.map X.hl).prod := by
  induction L using List.reverseRecOn with
  | nil => rfl
  | append_singleton L v ih => rw [H_snoc, ih]; simp

theorem H_order (H : HSS R) {X : Data R} (hX : X.Ok shift) {o o' : Nat → List Nat} (ho : Order R o) (ho' : Order R o') :
    X.H (upNodes R o) = X.H (upNodes R o') := by
  rw [H_prod, H_prod]
  unfold upNodes
  rw [List.map_flatMap, List.map_flatMap]
  induction (List.range (R.arr.maxLevel + 1)).reverse with
  | nil => rfl
  | cons l ls ih =>
    rw [List.flatMap_cons, List.flatMap_cons, List.prod_append, List.prod_append, ih]
    congr 1
    apply List.Perm.prod_eq'
    · exact ((ho l).trans (ho' l).symm).map _
    · rw [List.pairwise_map]
      refine List.Pairwise.imp_of_mem ?_ (ho.nodup H l)
      intro a b ha hb hne
      obtain ⟨a1, a2⟩ := (ho.mem H).1 ha
      obtain ⟨b1, b2⟩ := (ho.mem H).1 hb
      exact hl_commute H hX a1 b1 hne (a2.trans b2.symm)

/-- Both sweeps. -/
theorem sweeps (H : HSS R) {W : Nat → Nat → Nat → K} (hW : Nested R W) {X : Data R} (hX : X.Ok shift) (he : ∀ v < R.arr.nNode, X.Elim v) {up down : Nat → List Nat} (hu : Order R up) (hd : Order R down) :
    X.G (upNodes R up) * AllM R W shift * X.H (upNodes R fun l => (down l).reverse) = 1 := by
  rw [← H_order H hX hu hd.reverse]
  exact eliminated hX H hW (upNodes_topo hu H) (fun v hv => he v ((upNodes_mem hu H).1 hv)) (fun v hv => (upNodes_mem hu H).2 hv)

theorem H_foldl (X : Data R) (L : List Nat) : L.reverse.foldl (fun A v => X.hl v * A) 1 = X.H L := by
  rw [H_prod, List.foldl_reverse]
  induction L with
  | nil => rfl
  | cons v L ih => rw [List.foldr_cons, ih]; simp

end

end H2Pack.ULV
