import Verif.Model.AdmPairs
import Verif.Proof.Desc
import Mathlib.Tactic.Ring
import Mathlib.Algebra.BigOperators.Group.List.Basic
import Mathlib.Algebra.BigOperators.Ring.List

/-! # Counting argument for the block partition -/

namespace H2Pack.Part
variable {K : Type}

/-! ## Loops that only append -/

/-- Admissible and inadmissible entries appended by a call. -/
abbrev Delta (X : Type) := List X × List X

def Delta.add {X : Type} (D E : Delta X) : Delta X := (D.1 ++ E.1, D.2 ++ E.2)

/-- How a state absorbs a delta, which deltas are good, and a count of the delta. -/
structure Frame (X σ ι : Type) where
  app : σ → Delta X → σ
  app0 : ∀ s, app s ([], []) = s
  appAdd : ∀ s D E, app (app s D) E = app s (D.add E)
  good : Delta X → Prop
  good0 : good ([], [])
  goodAdd : ∀ D E, good D → good E → good (D.add E)
  cov : Delta X → ι → Nat
  cov0 : ∀ i, cov ([], []) i = 0
  covAdd : ∀ D E i, cov (D.add E) i = cov D i + cov E i

/-- The program `g` appends a fixed good delta with count `w` short of `u`. -/
def Does {X σ ι : Type} (F : Frame X σ ι) (g : σ → Res σ) (u w : ι → Nat) : Prop :=
  ∃ D, (∀ s, g s = .ok (F.app s D)) ∧ F.good D ∧ ∀ i, F.cov D i + u i = w i

theorem Does.skip {X σ ι : Type} (F : Frame X σ ι) (w : ι → Nat) : Does F (fun s => .ok s) w w :=
  ⟨([], []), fun s => by rw [F.app0], F.good0, fun i => by rw [F.cov0, Nat.zero_add]⟩

theorem Does.seq {X σ ι : Type} (F : Frame X σ ι) {g h : σ → Res σ} {u w u' w' : ι → Nat} (h1 : Does F g u w) (h2 : Does F h u' w') :
    Does F (fun s => g s >>= h) (fun i => u i + u' i) (fun i => w i + w' i) := by
  obtain ⟨D, d1, d2, d3⟩ := h1
  obtain ⟨E, e1, e2, e3⟩ := h2
  refine ⟨D.add E, ?_, F.goodAdd _ _ d2 e2, ?_⟩
  · intro s
    dsimp only
    rw [d1, Res.bind_ok, e1, F.appAdd]
  · intro i
    rw [F.covAdd]
    have := d3 i
    have := e3 i
    dsimp only
    omega

theorem forEach_cons {α σ : Type} (f : α → σ → Res σ) (x : α) (xs : List α) :
    forEach f (x :: xs) = fun s => f x s >>= forEach f xs := by
  funext s; rw [forEach]

theorem Does.forEach {X σ ι α : Type} (F : Frame X σ ι) (f : α → σ → Res σ) (u w : α → ι → Nat) :
    ∀ l : List α, (∀ x ∈ l, Does F (f x) (u x) (w x)) →
    Does F (forEach f l) (fun i => (l.map (fun x => u x i)).sum) (fun i => (l.map (fun x => w x i)).sum) := by
  intro l
  induction l with
  | nil => intro _; exact ⟨([], []), fun s => by rw [F.app0]; rfl, F.good0, fun i => by rw [F.cov0]; rfl⟩
  | cons x l ih =>
    intro h
    rw [forEach_cons]
    have := Does.seq F (h x (by simp)) (ih (fun y hy => h y (List.mem_cons_of_mem _ hy)))
    simpa using this

theorem Does.congr {X σ ι : Type} (F : Frame X σ ι) {g : σ → Res σ} {u w w' : ι → Nat} (h : Does F g u w) (hw : ∀ i, w i = w' i) : Does F g u w' := by
  obtain ⟨D, d1, d2, d3⟩ := h
  exact ⟨D, d1, d2, fun i => by rw [d3 i, hw i]⟩

theorem Does.forEach0 {X σ ι α : Type} (F : Frame X σ ι) (f : α → σ → Res σ) (w : α → ι → Nat) (l : List α)
    (h : ∀ x ∈ l, Does F (f x) (fun _ => 0) (w x)) :
    Does F (H2Pack.Part.forEach f l) (fun _ => 0) (fun i => (l.map (fun x => w x i)).sum) := by
  obtain ⟨D, d1, d2, d3⟩ := Does.forEach F f (fun _ _ => 0) w l h
  refine ⟨D, d1, d2, fun i => ?_⟩
  have e := d3 i
  have : (l.map (fun _ : α => 0)).sum = 0 := by
    clear h d1 d2 d3 e
    induction l with
    | nil => rfl
    | cons x l ih => rw [List.map_cons, List.sum_cons, ih]
  rw [this] at e
  exact e

/-- Sum over the pairs `i < j` of a list. -/
def psum {α : Type} (w : α → α → Nat) : List α → Nat
  | [] => 0
  | x :: xs => (xs.map (w x)).sum + psum w xs

theorem forPairs_cons {α σ : Type} (f : α → α → σ → Res σ) (x : α) (xs : List α) :
    forPairs f (x :: xs) = fun s => H2Pack.Part.forEach (f x) xs s >>= forPairs f xs := by
  funext s; rw [forPairs]

theorem Does.forPairs {X σ ι α : Type} (F : Frame X σ ι) (f : α → α → σ → Res σ) (w : α → α → ι → Nat) :
    ∀ l : List α, l.Pairwise (fun x y => Does F (f x y) (fun _ => 0) (w x y)) →
    Does F (forPairs f l) (fun _ => 0) (fun i => psum (fun x y => w x y i) l) := by
  intro l
  induction l with
  | nil => intro _; exact ⟨([], []), fun s => by rw [F.app0]; rfl, F.good0, fun i => by rw [F.cov0]; rfl⟩
  | cons x l ih =>
    intro h
    rw [List.pairwise_cons] at h
    rw [forPairs_cons]
    have := Does.seq F (Does.forEach F (f x) (fun _ _ => 0) (fun y => w x y) l h.1) (ih h.2)
    simpa [psum] using this

theorem sum_mul_sum {α : Type} (f g : α → Nat) : ∀ l : List α,
    (l.map (fun x => f x * g x)).sum + psum (fun x y => f x * g y + f y * g x) l = (l.map f).sum * (l.map g).sum := by
  intro l
  induction l with
  | nil => rfl
  | cons x l ih =>
    rw [List.map_cons, List.sum_cons, List.map_cons, List.sum_cons, List.map_cons, List.sum_cons, psum]
    have h1 : (l.map (fun y => f x * g y + f y * g x)).sum = f x * (l.map g).sum + (l.map f).sum * g x := by
      rw [List.sum_map_add, List.sum_map_mul_left, List.sum_map_mul_right]
    rw [h1]
    have : (f x + (l.map f).sum) * (g x + (l.map g).sum) = f x * g x + f x * (l.map g).sum + (l.map f).sum * g x + (l.map f).sum * (l.map g).sum := by ring
    rw [this, ← ih]
    ring

theorem sum_mul_sum2 {α β : Type} (f : α → Nat) (g : β → Nat) (l : List α) (m : List β) :
    (l.map (fun x => (m.map (fun y => f x * g y)).sum)).sum = (l.map f).sum * (m.map g).sum := by
  have : ∀ x, (m.map (fun y => f x * g y)).sum = f x * (m.map g).sum := fun x => List.sum_map_mul_left ..
  simp only [this]
  rw [List.sum_map_mul_right]

/-! ## Indicators -/

/-- Whether node `v` holds point `p`. -/
def inn (A : Arr K) (v p : Nat) : Nat := if A.ptS v ≤ p ∧ p ≤ A.ptE v then 1 else 0

theorem inn_le_one (A : Arr K) (v p : Nat) : inn A v p ≤ 1 := by unfold inn; split <;> omega

theorem inn_eq_one {A : Arr K} {v p : Nat} : inn A v p = 1 ↔ A.ptS v ≤ p ∧ p ≤ A.ptE v := by
  unfold inn; split <;> simp_all

theorem inn_eq_zero {A : Arr K} {v p : Nat} : inn A v p = 0 ↔ ¬ (A.ptS v ≤ p ∧ p ≤ A.ptE v) := by
  unfold inn; split <;> simp_all

theorem tiles_sum {α : Type} (f : α → Nat × Nat) (p : Nat) : ∀ (l : List α) (a b : Nat), Tiles a b (l.map f) →
    (l.map (fun x => if (f x).1 ≤ p ∧ p ≤ (f x).2 then 1 else 0)).sum = if a ≤ p ∧ p < b then 1 else 0 := by
  intro l
  induction l with
  | nil => intro a b h; have : a = b := h; rw [if_neg (by omega)]; rfl
  | cons z l ih =>
    intro a b h
    have hz : Tiles a b (((f z).1, (f z).2) :: l.map f) := h
    obtain ⟨q1, q2, q3⟩ := hz
    have hle := tiles_le _ _ _ q3
    rw [List.map_cons, List.sum_cons, ih _ _ q3]
    by_cases h1 : a ≤ p ∧ p < b
    · rw [if_pos h1]
      by_cases h2 : p ≤ (f z).2
      · rw [if_pos (by omega), if_neg (by omega)]
      · rw [if_neg (by omega), if_pos (by omega)]
    · rw [if_neg h1, if_neg (by omega), if_neg (by omega)]

namespace ClusterTree
variable {A : Arr K} {n : Nat}

theorem kids_sum (T : ClusterTree A n) {v : Nat} (hv : v < A.nNode) (hne : A.nChild v ≠ 0) (p : Nat) :
    ((kids A v).map (fun c => inn A c p)).sum = inn A v p := by
  have := tiles_sum (fun c => (A.ptS c, A.ptE c)) p (kids A v) _ _ (T.tile v hv hne)
  unfold inn
  rw [this]
  by_cases h : A.ptS v ≤ p ∧ p ≤ A.ptE v
  · rw [if_pos h, if_pos (by omega)]
  · rw [if_neg h, if_neg (by omega)]

theorem tiles_pairwise {α : Type} (f : α → Nat × Nat) : ∀ (l : List α) (a b : Nat), Tiles a b (l.map f) →
    l.Pairwise (fun x y => (f x).2 < (f y).1) := by
  intro l
  induction l with
  | nil => intro a b _; exact List.Pairwise.nil
  | cons z l ih =>
    intro a b h
    have hz : Tiles a b (((f z).1, (f z).2) :: l.map f) := h
    obtain ⟨q1, q2, q3⟩ := hz
    rw [List.pairwise_cons]
    refine ⟨?_, ih _ _ q3⟩
    intro y hy
    have := tiles_ge _ _ _ q3 (f y) (List.mem_map_of_mem hy)
    omega

theorem kids_pairwise (T : ClusterTree A n) {v : Nat} (hv : v < A.nNode) (hne : A.nChild v ≠ 0) :
    (kids A v).Pairwise (fun c d => A.ptE c < A.ptS d) :=
  tiles_pairwise (fun c => (A.ptS c, A.ptE c)) _ _ _ (T.tile v hv hne)

/-- Some leaf holds both points. -/
noncomputable def same (A : Arr K) (p q : Nat) : Nat :=
  open Classical in if ∃ u < A.nNode, A.nChild u = 0 ∧ inn A u p = 1 ∧ inn A u q = 1 then 1 else 0

theorem diag_leaf (T : ClusterTree A n) {v : Nat} (hv : v < A.nNode) (h0 : A.nChild v = 0) (p q : Nat) :
    inn A v p * inn A v q * same A p q = inn A v p * inn A v q := by
  have h1 := inn_le_one A v p
  have h2 := inn_le_one A v q
  by_cases hp : inn A v p = 1
  · by_cases hq : inn A v q = 1
    · have : same A p q = 1 := by unfold same; rw [if_pos ⟨v, hv, h0, hp, hq⟩]
      rw [this]; ring
    · rw [show inn A v q = 0 by omega]; ring
  · rw [show inn A v p = 0 by omega]; ring

theorem diag_kids (T : ClusterTree A n) {v : Nat} (hv : v < A.nNode) (hne : A.nChild v ≠ 0) (p q : Nat) :
    ((kids A v).map (fun c => inn A c p * inn A c q * same A p q)).sum = inn A v p * inn A v q * same A p q := by
  rw [List.sum_map_mul_right]
  have hs : same A p q = 0 ∨ same A p q = 1 := by unfold same; split <;> simp
  rcases hs with hs | hs
  · rw [hs]; ring
  · rw [hs, Nat.mul_one, Nat.mul_one]
    unfold same at hs
    have hex : ∃ u < A.nNode, A.nChild u = 0 ∧ inn A u p = 1 ∧ inn A u q = 1 := by
      by_contra hcon; rw [if_neg hcon] at hs; omega
    obtain ⟨u, hu, hu0, hup, huq⟩ := hex
    rw [inn_eq_one] at hup huq
    -- p and q lie in the same children
    have key : ∀ c ∈ kids A v, inn A c q = inn A c p := by
      intro c hc
      have hcl := T.kid_lt hv hc
      have step : ∀ x y, (A.ptS u ≤ x ∧ x ≤ A.ptE u) → (A.ptS u ≤ y ∧ y ≤ A.ptE u) → inn A c x = 1 → inn A c y = 1 := by
        intro x y hx hy h1
        rw [inn_eq_one] at h1 ⊢
        obtain ⟨w, ⟨w1, w2, w3, w4⟩, _⟩ := T.leaf_at c hcl x h1.1 h1.2
        have hr : A.nNode - 1 < A.nNode := by have := T.nonempty; omega
        have hx' := T.desc_cluster (T.desc_root hu) hr
        obtain ⟨z, _, hz⟩ := T.leaf_at (A.nNode - 1) hr x (by omega) (by omega)
        have e1 := hz u (T.desc_root hu) hu0 hx.1 hx.2
        have e2 := hz w (T.desc_root (by have := T.desc_le w1 hcl; omega)) w2 w3 w4
        have := T.desc_cluster w1 hcl
        rw [e2, ← e1] at this
        omega
      have h1 := inn_le_one A c p
      have h2 := inn_le_one A c q
      have s1 := step p q hup huq
      have s2 := step q p huq hup
      by_cases hp1 : inn A c p = 1
      · rw [hp1, s1 hp1]
      · have : inn A c q ≠ 1 := fun h => hp1 (s2 h)
        omega
    have hsum : ∀ r, ((kids A v).map (fun c => inn A c r)).sum = inn A v r := T.kids_sum hv hne
    have e1 : ((kids A v).map (fun c => inn A c p * inn A c q)) = (kids A v).map (fun c => inn A c p) := by
      apply List.map_congr_left
      intro c hc
      rw [key c hc]
      have := inn_le_one A c p
      rcases Nat.eq_zero_or_pos (inn A c p) with h | h
      · rw [h]
      · rw [show inn A c p = 1 by omega]
    have e2 : ((kids A v).map (fun c => inn A c q)) = (kids A v).map (fun c => inn A c p) := List.map_congr_left key
    rw [e1, hsum p]
    have : inn A v q = inn A v p := by rw [← hsum q, e2, hsum p]
    rw [this]
    have := inn_le_one A v p
    rcases Nat.eq_zero_or_pos (inn A v p) with h | h
    · rw [h]
    · rw [show inn A v p = 1 by omega]

end ClusterTree

/-! ## H2 and HSS pairs -/

/-- The block `(a, b)` of nodes holds the matrix entry `(p, q)`. -/
def Holds (A : Arr K) (p q : Nat) (x : Nat × Nat) : Prop :=
  (A.ptS x.1 ≤ p ∧ p ≤ A.ptE x.1) ∧ (A.ptS x.2 ≤ q ∧ q ≤ A.ptE x.2)

instance (A : Arr K) (p q : Nat) (x : Nat × Nat) : Decidable (Holds A p q x) := by unfold Holds; infer_instance

theorem holds_eq (A : Arr K) (p q : Nat) (x : Nat × Nat) : (if Holds A p q x then 1 else 0) = inn A x.1 p * inn A x.2 q := by
  unfold Holds inn
  by_cases h1 : A.ptS x.1 ≤ p ∧ p ≤ A.ptE x.1 <;> by_cases h2 : A.ptS x.2 ≤ q ∧ q ≤ A.ptE x.2 <;> simp [h1, h2]

theorem countP_append' {α : Type} (P : α → Bool) (a b : List α) : (a ++ b).countP P = a.countP P + b.countP P := List.countP_append

/-- What every recorded pair satisfies. -/
def GoodPairs (A : Arr K) (adm : Nat → Nat → Bool) (minLv : Nat) (D : Delta (Nat × Nat)) : Prop :=
  (∀ x ∈ D.1, x.1 < A.nNode ∧ x.2 < A.nNode ∧ (A.ptE x.1 < A.ptS x.2 ∨ A.ptE x.2 < A.ptS x.1) ∧ adm x.1 x.2 = true ∧ minLv ≤ A.level x.1 ∧ minLv ≤ A.level x.2) ∧
  (∀ x ∈ D.2, x.1 < A.nNode ∧ x.2 < A.nNode ∧ x.1 ≠ x.2 ∧ A.nChild x.1 = 0 ∧ A.nChild x.2 = 0 ∧
    ¬ (adm x.1 x.2 = true ∧ minLv ≤ A.level x.1 ∧ minLv ≤ A.level x.2))

/-- Number of recorded blocks, in both orientations, that hold `(p, q)`. -/
def cover2 (A : Arr K) (L : List (Nat × Nat)) (p q : Nat) : Nat :=
  L.countP (fun x => Holds A p q x) + L.countP (fun x => Holds A q p x)

theorem cover2_append (A : Arr K) (L M : List (Nat × Nat)) (p q : Nat) : cover2 A (L ++ M) p q = cover2 A L p q + cover2 A M p q := by
  unfold cover2; rw [List.countP_append, List.countP_append]; omega

theorem cover2_one (A : Arr K) (a b p q : Nat) : cover2 A [(a, b)] p q = inn A a p * inn A b q + inn A a q * inn A b p := by
  unfold cover2
  rw [List.countP_singleton, List.countP_singleton]
  have h1 := holds_eq A p q (a, b)
  have h2 := holds_eq A q p (a, b)
  simp only [decide_eq_true_eq]
  rw [h1, h2]

def frame2 (A : Arr K) (adm : Nat → Nat → Bool) (minLv : Nat) : Frame (Nat × Nat) Pairs (Nat × Nat) where
  app s D := ⟨s.adm ++ D.1, s.inadm ++ D.2, (D.1.map (fun x => max (A.level x.1) (A.level x.2))).foldl min s.minAdm⟩
  app0 s := by simp
  appAdd s D E := by simp [Delta.add]
  good := GoodPairs A adm minLv
  good0 := by simp [GoodPairs]
  goodAdd D E hD hE := by
    refine ⟨?_, ?_⟩
    · intro x hx; rcases List.mem_append.1 hx with h | h
      · exact hD.1 x h
      · exact hE.1 x h
    · intro x hx; rcases List.mem_append.1 hx with h | h
      · exact hD.2 x h
      · exact hE.2 x h
  cov D i := cover2 A D.1 i.1 i.2 + cover2 A D.2 i.1 i.2
  cov0 i := by simp [cover2]
  covAdd D E i := by simp only [Delta.add]; rw [cover2_append, cover2_append]; omega

variable {A : Arr K} {n : Nat}

theorem not_disj_self (T : ClusterTree A n) {a : Nat} (ha : a < A.nNode) : ¬ (A.ptE a < A.ptS a ∨ A.ptE a < A.ptS a) := by
  have := T.clusterLe a ha; omega

/-- Two nodes with disjoint clusters. -/
theorem calcPairs_diff (T : ClusterTree A n) (adm : Nat → Nat → Bool) (minLv : Nat) : ∀ (fuel a b : Nat), a < A.nNode → b < A.nNode → a + b < fuel →
    (A.ptE a < A.ptS b ∨ A.ptE b < A.ptS a) →
    Does (frame2 A adm minLv) (calcPairs A adm minLv fuel a b) (fun _ => 0) (fun i => inn A a i.1 * inn A b i.2 + inn A a i.2 * inn A b i.1) := by
  intro fuel
  induction fuel with
  | zero => intro a b _ _ h; omega
  | succ fuel ih =>
    intro a b ha hb hf hd
    have hab : a ≠ b := by rintro rfl; have := T.clusterLe a ha; omega
    have hfun : calcPairs A adm minLv (fuel+1) a b = fun pv =>
      if adm a b = true ∧ minLv ≤ A.level a ∧ minLv ≤ A.level b then
        .ok ⟨pv.adm ++ [(a, b)], pv.inadm, min pv.minAdm (max (A.level a) (A.level b))⟩
      else if A.nChild a = 0 ∧ A.nChild b = 0 then .ok ⟨pv.adm, pv.inadm ++ [(a, b)], pv.minAdm⟩
      else if A.nChild a = 0 then forEach (fun d pv => calcPairs A adm minLv fuel a d pv) (kids A b) pv
      else if A.nChild b = 0 then forEach (fun c pv => calcPairs A adm minLv fuel c b pv) (kids A a) pv
      else forEach (fun c pv => forEach (fun d pv => calcPairs A adm minLv fuel c d pv) (kids A b) pv) (kids A a) pv := by
      funext pv
      rw [calcPairs, if_pos ⟨ha, hb⟩, if_neg hab]
    rw [hfun]
    by_cases h1 : adm a b = true ∧ minLv ≤ A.level a ∧ minLv ≤ A.level b
    · refine ⟨([(a, b)], []), ?_, ?_, ?_⟩
      · intro s; dsimp only; rw [if_pos h1]; simp [frame2]
      · exact ⟨by intro x hx; rw [List.mem_singleton] at hx; subst hx; exact ⟨ha, hb, hd, h1⟩, by simp⟩
      · intro i; show cover2 A [(a, b)] i.1 i.2 + cover2 A [] i.1 i.2 + 0 = _; rw [cover2_one]; rfl
    · simp only [if_neg h1]
      by_cases h2 : A.nChild a = 0 ∧ A.nChild b = 0
      · refine ⟨([], [(a, b)]), ?_, ?_, ?_⟩
        · intro s; dsimp only; rw [if_pos h2]; simp [frame2]
        · exact ⟨by simp, by intro x hx; rw [List.mem_singleton] at hx; subst hx; exact ⟨ha, hb, hab, h2.1, h2.2, h1⟩⟩
        · intro i; show cover2 A [] i.1 i.2 + cover2 A [(a, b)] i.1 i.2 + 0 = _; rw [cover2_one]; simp [cover2]
      · simp only [if_neg h2]
        have kidDisjB : ∀ d ∈ kids A b, (A.ptE a < A.ptS d ∨ A.ptE d < A.ptS a) := by
          intro d hd'; have := T.kid_cluster hb hd'; omega
        by_cases h3 : A.nChild a = 0
        · simp only [if_pos h3]
          have hnb : A.nChild b ≠ 0 := fun h => h2 ⟨h3, h⟩
          refine Does.congr _ (Does.forEach0 (frame2 A adm minLv) (fun d pv => calcPairs A adm minLv fuel a d pv)
            (fun d i => inn A a i.1 * inn A d i.2 + inn A a i.2 * inn A d i.1) (kids A b)
            (fun d hd' => ih a d ha (T.kid_lt hb hd') (by have := T.childLt b hb d hd'; omega) (kidDisjB d hd'))) ?_
          intro i
          rw [List.sum_map_add, List.sum_map_mul_left, List.sum_map_mul_left, T.kids_sum hb hnb, T.kids_sum hb hnb]
        · simp only [if_neg h3]
          by_cases h4 : A.nChild b = 0
          · simp only [if_pos h4]
            refine Does.congr _ (Does.forEach0 (frame2 A adm minLv) (fun c pv => calcPairs A adm minLv fuel c b pv)
              (fun c i => inn A c i.1 * inn A b i.2 + inn A c i.2 * inn A b i.1) (kids A a)
              (fun c hc => ih c b (T.kid_lt ha hc) hb (by have := T.childLt a ha c hc; omega)
                (by have := T.kid_cluster ha hc; omega))) ?_
            intro i
            rw [List.sum_map_add, List.sum_map_mul_right, List.sum_map_mul_right, T.kids_sum ha h3, T.kids_sum ha h3]
          · simp only [if_neg h4]
            refine Does.congr _ (Does.forEach0 (frame2 A adm minLv) (fun c pv => forEach (fun d pv => calcPairs A adm minLv fuel c d pv) (kids A b) pv)
              (fun c i => ((kids A b).map (fun d => inn A c i.1 * inn A d i.2 + inn A c i.2 * inn A d i.1)).sum) (kids A a)
              (fun c hc => Does.forEach0 (frame2 A adm minLv) (fun d pv => calcPairs A adm minLv fuel c d pv)
                (fun d i => inn A c i.1 * inn A d i.2 + inn A c i.2 * inn A d i.1) (kids A b)
                (fun d hd' => ih c d (T.kid_lt ha hc) (T.kid_lt hb hd')
                  (by have := T.childLt a ha c hc; have := T.childLt b hb d hd'; omega)
                  (by have := T.kid_cluster ha hc; have := T.kid_cluster hb hd'; omega)))) ?_
            intro i
            simp only [List.sum_map_add]
            rw [sum_mul_sum2 (fun c => inn A c i.1) (fun d => inn A d i.2), sum_mul_sum2 (fun c => inn A c i.2) (fun d => inn A d i.1),
              T.kids_sum ha h3, T.kids_sum ha h3, T.kids_sum hb h4, T.kids_sum hb h4]

theorem calcPairs_self (T : ClusterTree A n) (adm : Nat → Nat → Bool) (minLv : Nat) : ∀ (fuel a : Nat), a < A.nNode → a + a < fuel →
    Does (frame2 A adm minLv) (calcPairs A adm minLv fuel a a) (fun i => inn A a i.1 * inn A a i.2 * ClusterTree.same A i.1 i.2)
      (fun i => inn A a i.1 * inn A a i.2) := by
  intro fuel
  induction fuel with
  | zero => intro a _ h; omega
  | succ fuel ih =>
    intro a ha hf
    have hfun : calcPairs A adm minLv (fuel+1) a a = fun pv => if A.nChild a = 0 then .ok pv else
        (forEach (fun c pv => calcPairs A adm minLv fuel c c pv) (kids A a) pv >>=
          forPairs (fun c d pv => calcPairs A adm minLv fuel c d pv) (kids A a)) := by
      funext pv
      rw [calcPairs, if_pos ⟨ha, ha⟩, if_pos rfl]
    rw [hfun]
    by_cases h0 : A.nChild a = 0
    · simp only [if_pos h0]
      have := Does.skip (frame2 A adm minLv) (fun i => inn A a i.1 * inn A a i.2)
      obtain ⟨D, d1, d2, d3⟩ := this
      refine ⟨D, d1, d2, ?_⟩
      intro i
      dsimp only
      rw [T.diag_leaf ha h0]; exact d3 i
    · simp only [if_neg h0]
      have h1 := Does.forEach (frame2 A adm minLv) (fun c pv => calcPairs A adm minLv fuel c c pv)
        (fun c i => inn A c i.1 * inn A c i.2 * ClusterTree.same A i.1 i.2) (fun c i => inn A c i.1 * inn A c i.2) (kids A a)
        (fun c hc => ih c (T.kid_lt ha hc) (by have := T.childLt a ha c hc; omega))
      have h2 := Does.forPairs (frame2 A adm minLv) (fun c d pv => calcPairs A adm minLv fuel c d pv)
        (fun c d i => inn A c i.1 * inn A d i.2 + inn A c i.2 * inn A d i.1) (kids A a)
        ((T.kids_pairwise ha h0).imp_of_mem (fun {c d} hc hd hcd => calcPairs_diff T adm minLv fuel c d (T.kid_lt ha hc) (T.kid_lt ha hd)
          (by have := T.childLt a ha c hc; have := T.childLt a ha d hd; omega) (Or.inl hcd)))
      obtain ⟨D, d1, d2, d3⟩ := Does.seq _ h1 h2
      refine ⟨D, d1, d2, ?_⟩
      intro i
      have e := d3 i
      dsimp only at e
      rw [Nat.add_zero, T.diag_kids ha h0] at e
      rw [e]
      have e2 := sum_mul_sum (fun c => inn A c i.1) (fun c => inn A c i.2) (kids A a)
      rw [T.kids_sum ha h0, T.kids_sum ha h0] at e2
      dsimp only
      rw [← e2]
      congr 2
      funext c d
      ring

/-! ## Periodic pairs -/

/-- Number of recorded triples of lattice `l` whose block holds `(p, q)`. -/
def cover3 (A : Arr K) (L : List (Nat × Nat × Nat)) (p q l : Nat) : Nat :=
  L.countP (fun x => Holds A p q (x.1, x.2.1) ∧ x.2.2 = l)

theorem cover3_append (A : Arr K) (L M : List (Nat × Nat × Nat)) (p q l : Nat) : cover3 A (L ++ M) p q l = cover3 A L p q l + cover3 A M p q l := by
  unfold cover3; rw [List.countP_append]

/-- Whether the lattice is the one asked for. -/
def dl (l l' : Nat) : Nat := if l = l' then 1 else 0

theorem cover3_one (A : Arr K) (a b l p q l' : Nat) : cover3 A [(a, b, l)] p q l' = inn A a p * inn A b q * dl l l' := by
  unfold cover3
  rw [List.countP_singleton]
  have h1 := holds_eq A p q (a, b)
  dsimp only at h1 ⊢
  unfold dl
  rw [← h1]
  by_cases h : Holds A p q (a, b) <;> by_cases h' : l = l' <;> simp [h, h']

/-- Weight of a pair of nodes. -/
def wper (A : Arr K) (hs : Bool) (a b p q : Nat) : Nat :=
  inn A a p * inn A b q + (if hs = true then 0 else inn A a q * inn A b p)

theorem cover3_push (A : Arr K) (hs : Bool) (a b l p q l' : Nat) : cover3 A (perPush hs a b l) p q l' = wper A hs a b p q * dl l l' := by
  unfold perPush wper
  cases hs
  · have : [(a, b, l), (b, a, l)] = [(a, b, l)] ++ [(b, a, l)] := rfl
    simp only [Bool.false_eq_true, if_false]
    rw [this, cover3_append, cover3_one, cover3_one]; ring
  · simp only [if_true]
    rw [cover3_one]; ring

theorem wper_sum_right (T : ClusterTree A n) (hs : Bool) (a : Nat) {b : Nat} (hb : b < A.nNode) (hne : A.nChild b ≠ 0) (p q : Nat) :
    ((kids A b).map (fun d => wper A hs a d p q)).sum = wper A hs a b p q := by
  unfold wper
  rw [List.sum_map_add, List.sum_map_mul_left, T.kids_sum hb hne]
  cases hs
  · simp only [Bool.false_eq_true, if_false]; rw [List.sum_map_mul_left, T.kids_sum hb hne]
  · simp

theorem wper_sum_left (T : ClusterTree A n) (hs : Bool) {a : Nat} (b : Nat) (ha : a < A.nNode) (hne : A.nChild a ≠ 0) (p q : Nat) :
    ((kids A a).map (fun c => wper A hs c b p q)).sum = wper A hs a b p q := by
  unfold wper
  rw [List.sum_map_add, List.sum_map_mul_right, T.kids_sum ha hne]
  cases hs
  · simp only [Bool.false_eq_true, if_false]; rw [List.sum_map_mul_right, T.kids_sum ha hne]
  · simp

/-- What every recorded triple satisfies; `adm l a b` is the test of nodes `a`, `b` for lattice `l`. -/
def GoodPer (A : Arr K) (adm : Nat → Nat → Nat → Bool) (hs : Nat → Bool) (D : Delta (Nat × Nat × Nat)) : Prop :=
  (∀ x ∈ D.1, x.1 < A.nNode ∧ x.2.1 < A.nNode ∧ (adm x.2.2 x.1 x.2.1 = true ∨ hs x.2.2 = false ∧ adm x.2.2 x.2.1 x.1 = true)) ∧
  (∀ x ∈ D.2, x.1 < A.nNode ∧ x.2.1 < A.nNode ∧ A.nChild x.1 = 0 ∧ A.nChild x.2.1 = 0 ∧
    (adm x.2.2 x.1 x.2.1 = false ∨ hs x.2.2 = false ∧ adm x.2.2 x.2.1 x.1 = false))

def frame3 (A : Arr K) (adm : Nat → Nat → Nat → Bool) (hs : Nat → Bool) : Frame (Nat × Nat × Nat) PerPairs (Nat × Nat × Nat) where
  app s D := ⟨s.adm ++ D.1, s.inadm ++ D.2⟩
  app0 s := by simp
  appAdd s D E := by simp [Delta.add]
  good := GoodPer A adm hs
  good0 := by simp [GoodPer]
  goodAdd D E hD hE := by
    refine ⟨?_, ?_⟩
    · intro x hx; rcases List.mem_append.1 hx with h | h
      · exact hD.1 x h
      · exact hE.1 x h
    · intro x hx; rcases List.mem_append.1 hx with h | h
      · exact hD.2 x h
      · exact hE.2 x h
  cov D i := cover3 A D.1 i.1 i.2.1 i.2.2 + cover3 A D.2 i.1 i.2.1 i.2.2
  cov0 i := by simp [cover3]
  covAdd D E i := by simp only [Delta.add]; rw [cover3_append, cover3_append]; omega

section
variable [Field K] [LinearOrder K]

/-- Two nodes with disjoint clusters, or any two nodes when there is a shift. -/
theorem calcPairsPer_diff (T : ClusterTree A n) (adm : Nat → Nat → Nat → Bool) (hs : Nat → Bool) (l : Nat) :
    ∀ (fuel a b : Nat), a < A.nNode → b < A.nNode → a + b < fuel →
    (hs l = true ∨ A.ptE a < A.ptS b ∨ A.ptE b < A.ptS a) →
    Does (frame3 A adm hs) (calcPairsPer A (adm l) (hs l) l fuel a b) (fun _ => 0) (fun i => wper A (hs l) a b i.1 i.2.1 * dl l i.2.2) := by
  intro fuel
  induction fuel with
  | zero => intro a b _ _ h; omega
  | succ fuel ih =>
    intro a b ha hb hf hd
    have hab : ¬ (a = b ∧ hs l = false) := by
      rintro ⟨rfl, h⟩; have := T.clusterLe a ha
      rcases hd with h' | h'
      · rw [h] at h'; simp at h'
      · omega
    have hfun : calcPairsPer A (adm l) (hs l) l (fuel+1) a b = fun pv =>
      if adm l a b = true then .ok ⟨pv.adm ++ perPush (hs l) a b l, pv.inadm⟩
      else if A.nChild a = 0 ∧ A.nChild b = 0 then .ok ⟨pv.adm, pv.inadm ++ perPush (hs l) a b l⟩
      else if A.nChild a = 0 then forEach (fun d pv => calcPairsPer A (adm l) (hs l) l fuel a d pv) (kids A b) pv
      else if A.nChild b = 0 then forEach (fun c pv => calcPairsPer A (adm l) (hs l) l fuel c b pv) (kids A a) pv
      else forEach (fun c pv => forEach (fun d pv => calcPairsPer A (adm l) (hs l) l fuel c d pv) (kids A b) pv) (kids A a) pv := by
      funext pv
      rw [calcPairsPer, if_pos ⟨ha, hb⟩, if_neg hab]
    have hpush : ∀ x ∈ perPush (hs l) a b l, x = (a, b, l) ∨ hs l = false ∧ x = (b, a, l) := by
      intro x hx
      unfold perPush at hx
      cases hh : hs l <;> rw [hh] at hx <;> simp at hx
      · rcases hx with h | h
        · exact Or.inl h
        · exact Or.inr ⟨rfl, h⟩
      · exact Or.inl hx
    rw [hfun]
    by_cases h1 : adm l a b = true
    · refine ⟨(perPush (hs l) a b l, []), ?_, ?_, ?_⟩
      · intro s; dsimp only; rw [if_pos h1]; simp [frame3]
      · refine ⟨?_, by simp⟩
        intro x hx
        rcases hpush x hx with h | ⟨hh, h⟩
        · subst h; exact ⟨ha, hb, Or.inl h1⟩
        · subst h; exact ⟨hb, ha, Or.inr ⟨hh, h1⟩⟩
      · intro i; show cover3 A (perPush (hs l) a b l) i.1 i.2.1 i.2.2 + cover3 A [] i.1 i.2.1 i.2.2 + 0 = _; rw [cover3_push]; rfl
    · simp only [if_neg h1]
      by_cases h2 : A.nChild a = 0 ∧ A.nChild b = 0
      · refine ⟨([], perPush (hs l) a b l), ?_, ?_, ?_⟩
        · intro s; dsimp only; rw [if_pos h2]; simp [frame3]
        · refine ⟨by simp, ?_⟩
          intro x hx
          have h1' : adm l a b = false := by simpa using h1
          rcases hpush x hx with h | ⟨hh, h⟩
          · subst h; exact ⟨ha, hb, h2.1, h2.2, Or.inl h1'⟩
          · subst h; exact ⟨hb, ha, h2.2, h2.1, Or.inr ⟨hh, h1'⟩⟩
        · intro i; show cover3 A [] i.1 i.2.1 i.2.2 + cover3 A (perPush (hs l) a b l) i.1 i.2.1 i.2.2 + 0 = _; rw [cover3_push]; simp [cover3]
      · simp only [if_neg h2]
        by_cases h3 : A.nChild a = 0
        · simp only [if_pos h3]
          have hnb : A.nChild b ≠ 0 := fun h => h2 ⟨h3, h⟩
          refine Does.congr _ (Does.forEach0 (frame3 A adm hs) (fun d pv => calcPairsPer A (adm l) (hs l) l fuel a d pv)
            (fun d i => wper A (hs l) a d i.1 i.2.1 * dl l i.2.2) (kids A b)
            (fun d hd' => ih a d ha (T.kid_lt hb hd') (by have := T.childLt b hb d hd'; omega)
              (by have := T.kid_cluster hb hd'; rcases hd with h | h; exact Or.inl h; exact Or.inr (by omega)))) ?_
          intro i
          rw [List.sum_map_mul_right, wper_sum_right T _ _ hb hnb]
        · simp only [if_neg h3]
          by_cases h4 : A.nChild b = 0
          · simp only [if_pos h4]
            refine Does.congr _ (Does.forEach0 (frame3 A adm hs) (fun c pv => calcPairsPer A (adm l) (hs l) l fuel c b pv)
              (fun c i => wper A (hs l) c b i.1 i.2.1 * dl l i.2.2) (kids A a)
              (fun c hc => ih c b (T.kid_lt ha hc) hb (by have := T.childLt a ha c hc; omega)
                (by have := T.kid_cluster ha hc; rcases hd with h | h; exact Or.inl h; exact Or.inr (by omega)))) ?_
            intro i
            rw [List.sum_map_mul_right, wper_sum_left T _ _ ha h3]
          · simp only [if_neg h4]
            refine Does.congr _ (Does.forEach0 (frame3 A adm hs) (fun c pv => forEach (fun d pv => calcPairsPer A (adm l) (hs l) l fuel c d pv) (kids A b) pv)
              (fun c i => ((kids A b).map (fun d => wper A (hs l) c d i.1 i.2.1 * dl l i.2.2)).sum) (kids A a)
              (fun c hc => Does.forEach0 (frame3 A adm hs) (fun d pv => calcPairsPer A (adm l) (hs l) l fuel c d pv)
                (fun d i => wper A (hs l) c d i.1 i.2.1 * dl l i.2.2) (kids A b)
                (fun d hd' => ih c d (T.kid_lt ha hc) (T.kid_lt hb hd')
                  (by have := T.childLt a ha c hc; have := T.childLt b hb d hd'; omega)
                  (by have := T.kid_cluster ha hc; have := T.kid_cluster hb hd'; rcases hd with h | h; exact Or.inl h; exact Or.inr (by omega))))) ?_
            intro i
            simp only [List.sum_map_mul_right, wper_sum_right T _ _ hb h4]
            rw [wper_sum_left T _ _ ha h3]

/-- A node with itself, no shift. -/
theorem calcPairsPer_self (T : ClusterTree A n) (adm : Nat → Nat → Nat → Bool) (hs : Nat → Bool) (l : Nat) (hl : hs l = false) :
    ∀ (fuel a : Nat), a < A.nNode → a + a < fuel →
    Does (frame3 A adm hs) (calcPairsPer A (adm l) (hs l) l fuel a a)
      (fun i => inn A a i.1 * inn A a i.2.1 * ClusterTree.same A i.1 i.2.1 * dl l i.2.2)
      (fun i => inn A a i.1 * inn A a i.2.1 * dl l i.2.2) := by
  intro fuel
  induction fuel with
  | zero => intro a _ h; omega
  | succ fuel ih =>
    intro a ha hf
    have hfun : calcPairsPer A (adm l) (hs l) l (fuel+1) a a = fun pv => if A.nChild a = 0 then .ok pv else
        (forEach (fun c pv => calcPairsPer A (adm l) (hs l) l fuel c c pv) (kids A a) pv >>=
          forPairs (fun c d pv => calcPairsPer A (adm l) (hs l) l fuel c d pv) (kids A a)) := by
      funext pv
      rw [calcPairsPer, if_pos ⟨ha, ha⟩, if_pos ⟨rfl, hl⟩]
    rw [hfun]
    by_cases h0 : A.nChild a = 0
    · simp only [if_pos h0]
      have := Does.skip (frame3 A adm hs) (fun i => inn A a i.1 * inn A a i.2.1 * dl l i.2.2)
      obtain ⟨D, d1, d2, d3⟩ := this
      refine ⟨D, d1, d2, ?_⟩
      intro i
      dsimp only
      rw [T.diag_leaf ha h0]; exact d3 i
    · simp only [if_neg h0]
      have h1 := Does.forEach (frame3 A adm hs) (fun c pv => calcPairsPer A (adm l) (hs l) l fuel c c pv)
        (fun c i => inn A c i.1 * inn A c i.2.1 * ClusterTree.same A i.1 i.2.1 * dl l i.2.2) (fun c i => inn A c i.1 * inn A c i.2.1 * dl l i.2.2) (kids A a)
        (fun c hc => ih c (T.kid_lt ha hc) (by have := T.childLt a ha c hc; omega))
      have h2 := Does.forPairs (frame3 A adm hs) (fun c d pv => calcPairsPer A (adm l) (hs l) l fuel c d pv)
        (fun c d i => wper A (hs l) c d i.1 i.2.1 * dl l i.2.2) (kids A a)
        ((T.kids_pairwise ha h0).imp_of_mem (fun {c d} hc hd hcd => calcPairsPer_diff T adm hs l fuel c d (T.kid_lt ha hc) (T.kid_lt ha hd)
          (by have := T.childLt a ha c hc; have := T.childLt a ha d hd; omega) (Or.inr (Or.inl hcd))))
      obtain ⟨D, d1, d2, d3⟩ := Does.seq _ h1 h2
      refine ⟨D, d1, d2, ?_⟩
      intro i
      have e := d3 i
      dsimp only at e
      rw [Nat.add_zero] at e
      simp only [List.sum_map_mul_right] at e
      have e3 := T.diag_kids ha h0 i.1 i.2.1
      rw [List.sum_map_mul_right] at e3
      rw [e3] at e
      rw [e]
      have e2 := sum_mul_sum (fun c => inn A c i.1) (fun c => inn A c i.2.1) (kids A a)
      rw [T.kids_sum ha h0, T.kids_sum ha h0] at e2
      dsimp only
      rw [← e2, Nat.add_mul]
      congr 1
      have hp : ∀ (m : List Nat) (w : Nat → Nat → Nat) (k : Nat), psum (fun x y => w x y * k) m = psum w m * k := by
        intro m w k
        induction m with
        | nil => simp [psum]
        | cons x m ihm => rw [psum, psum, ihm, List.sum_map_mul_right, Nat.add_mul]
      rw [hp]
      congr 2
      funext c d
      unfold wper
      rw [hl]
      simp only [Bool.false_eq_true, if_false]
      ring

end

end H2Pack.Part
