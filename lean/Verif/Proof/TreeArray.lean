import Verif.Proof.Partition
import Mathlib.Data.List.Perm.Basic
import Mathlib.Data.List.Nodup

/-! # Conversion of the tree to arrays: helper lemmas -/

namespace H2Pack.Part
open H2Pack.Utils (Box)
variable {K : Type}

/-- Sequential processing of a list of nodes. -/
def writeAll : List (Tree K) → Arr K → Res (Arr K)
  | [], A => .ok A
  | t :: ts, A => do
    let A ← writeNode t A
    writeAll ts A

theorem writeAll_append (a b : List (Tree K)) (A : Arr K) :
    writeAll (a ++ b) A = (writeAll a A >>= writeAll b) := by
  induction a generalizing A with
  | nil => rfl
  | cons t a ih =>
    rw [List.cons_append, writeAll, writeAll]
    cases h : writeNode t A with
    | ok A' => simp only [Res.bind_ok]; exact ih A'
    | ub => rfl
    | diverge => rfl

theorem treesToArray_eq (ts : List (Tree K)) (h : ∀ t ∈ ts, ∀ A, treeToArray t A = writeAll (postorder t) A) :
    ∀ A, treesToArray ts A = writeAll (ts.flatMap postorder) A := by
  induction ts with
  | nil => intro A; rw [treesToArray]; rfl
  | cons t ts ih =>
    intro A
    rw [treesToArray, List.flatMap_cons, writeAll_append, h t (by simp) A]
    cases writeAll (postorder t) A with
    | ok A' => simp only [Res.bind_ok]; exact ih (fun t' ht' => h t' (List.mem_cons_of_mem _ ht')) A'
    | ub => rfl
    | diverge => rfl

theorem treeToArray_eq : ∀ (t : Tree K) (A : Arr K), treeToArray t A = writeAll (postorder t) A := by
  intro t
  induction t using Tree.ind with
  | _ t ih =>
    intro A
    cases t with
    | mk s e po l h n b cs =>
      rw [treeToArray, treesToArray_eq cs (fun t ht => ih t ht), postorder_eq, writeAll_append]
      show _ = (writeAll (cs.flatMap postorder) A >>= writeAll [Tree.mk s e po l h n b cs])
      cases writeAll (cs.flatMap postorder) A with
      | ok A' =>
        simp only [Res.bind_ok, writeAll]
        cases writeNode (Tree.mk s e po l h n b cs) A' <;> rfl
      | ub => rfl
      | diverge => rfl

/-! ## Parents -/

def childPos (L : List (Tree K)) : List Nat := L.flatMap (fun t => t.children.map Tree.po)

theorem childPos_append (a b : List (Tree K)) : childPos (a ++ b) = childPos a ++ childPos b := by
  unfold childPos; rw [List.flatMap_append]

theorem childPos_perm : ∀ (t : Tree K), (childPos (postorder t) ++ [t.po]).Perm ((postorder t).map Tree.po) := by
  intro t
  induction t using Tree.ind with
  | _ t ih =>
    rw [postorder_eq, childPos_append, List.map_append]
    have key : ∀ cs : List (Tree K), (∀ c ∈ cs, (childPos (postorder c) ++ [c.po]).Perm ((postorder c).map Tree.po)) →
        (childPos (cs.flatMap postorder) ++ cs.map Tree.po).Perm ((cs.flatMap postorder).map Tree.po) := by
      intro cs
      induction cs with
      | nil => intro _; exact List.Perm.refl _
      | cons c cs ihc =>
        intro h
        rw [List.flatMap_cons, childPos_append, List.map_append, List.map_cons]
        have h1 := h c (by simp)
        have h2 := ihc (fun c' hc' => h c' (List.mem_cons_of_mem _ hc'))
        refine List.Perm.trans ?_ (h1.append h2)
        generalize childPos (postorder c) = X
        generalize childPos (cs.flatMap postorder) = Y
        generalize cs.map Tree.po = Z
        rw [List.append_assoc, List.append_assoc]
        apply List.Perm.append_left
        rw [List.singleton_append]
        exact List.perm_middle
    have := key t.children ih
    have h3 : childPos [t] = t.children.map Tree.po := by unfold childPos; simp
    rw [h3]
    exact this.append_right _

/-! ## Counting nodes by level and height -/

def cntBy (f : Tree K → Nat) (L : List (Tree K)) (l : Nat) : Nat := (L.filter (fun t => f t = l)).length

theorem cntBy_append (f : Tree K → Nat) (a b : List (Tree K)) (l : Nat) : cntBy f (a ++ b) l = cntBy f a l + cntBy f b l := by
  unfold cntBy; rw [List.filter_append, List.length_append]

theorem cntBy_flatMap_le (f : Tree K → Nat) (l : Nat) : ∀ cs : List (Tree K),
    (∀ c ∈ cs, cntBy f (postorder c) l ≤ leafCount (postorder c)) → cntBy f (cs.flatMap postorder) l ≤ leafCount (cs.flatMap postorder) := by
  intro cs
  induction cs with
  | nil => intro _; exact Nat.zero_le _
  | cons c cs ih =>
    intro h
    rw [List.flatMap_cons, cntBy_append, leafCount_append]
    have := h c (by simp)
    have := ih (fun c' hc' => h c' (List.mem_cons_of_mem _ hc'))
    omega

theorem cntBy_eq_zero (f : Tree K → Nat) (L : List (Tree K)) (l : Nat) (h : ∀ t ∈ L, f t ≠ l) : cntBy f L l = 0 := by
  unfold cntBy
  rw [List.length_eq_zero_iff, List.filter_eq_nil_iff]
  intro t ht
  simp [h t ht]

theorem leafCount_pos : ∀ (t : Tree K), 1 ≤ leafCount (postorder t) := by
  intro t
  induction t using Tree.ind with
  | _ t ih =>
    rw [postorder_eq, leafCount_append]
    cases hc : t.children with
    | nil => simp [leafCount, hc]
    | cons c cs =>
      have := ih c (by rw [hc]; simp)
      rw [List.flatMap_cons, leafCount_append]
      omega

/-- A level function: children have larger value than their parent (`up`) -/
theorem cnt_level_le : ∀ (t : Tree K), (∀ t' ∈ postorder t, ∀ c ∈ t'.children, c.level = t'.level + 1) →
    (∀ t' ∈ postorder t, t.level ≤ t'.level) ∧ ∀ l, cntBy Tree.level (postorder t) l ≤ leafCount (postorder t) := by
  intro t
  induction t using Tree.ind with
  | _ t ih =>
    intro h
    have hch : ∀ c ∈ t.children, (∀ t' ∈ postorder c, c.level ≤ t'.level) ∧ ∀ l, cntBy Tree.level (postorder c) l ≤ leafCount (postorder c) :=
      fun c hc => ih c hc (fun t' ht' => h t' ((mem_postorder t t').2 (Or.inl ⟨c, hc, ht'⟩)))
    have hge : ∀ t' ∈ t.children.flatMap postorder, t.level + 1 ≤ t'.level := by
      intro t' ht'
      rw [List.mem_flatMap] at ht'
      obtain ⟨c, hc, hm⟩ := ht'
      have := (hch c hc).1 t' hm
      have := h t (self_mem t) c hc
      omega
    constructor
    · intro t' ht'
      rw [postorder_eq, List.mem_append, List.mem_singleton] at ht'
      rcases ht' with h1 | h1
      · have := hge t' h1; omega
      · rw [h1]
    · intro l
      by_cases hl : l = t.level
      · subst hl
        rw [postorder_eq, cntBy_append, cntBy_eq_zero _ _ _ (fun t' ht' => by have := hge t' ht'; omega)]
        have : cntBy Tree.level [t] t.level = 1 := by simp [cntBy]
        rw [this, ← postorder_eq]
        exact leafCount_pos t
      · rw [postorder_eq, cntBy_append, leafCount_append]
        have h1 := cntBy_flatMap_le Tree.level l t.children (fun c hc => (hch c hc).2 l)
        have h2 : cntBy Tree.level [t] l = 0 := cntBy_eq_zero _ _ _ (by simp; exact Ne.symm hl)
        omega

theorem cnt_height_le : ∀ (t : Tree K), (∀ t' ∈ postorder t, ∀ c ∈ t'.children, c.height < t'.height) →
    (∀ t' ∈ postorder t, t'.height ≤ t.height) ∧ ∀ l, cntBy Tree.height (postorder t) l ≤ leafCount (postorder t) := by
  intro t
  induction t using Tree.ind with
  | _ t ih =>
    intro h
    have hch : ∀ c ∈ t.children, (∀ t' ∈ postorder c, t'.height ≤ c.height) ∧ ∀ l, cntBy Tree.height (postorder c) l ≤ leafCount (postorder c) :=
      fun c hc => ih c hc (fun t' ht' => h t' ((mem_postorder t t').2 (Or.inl ⟨c, hc, ht'⟩)))
    have hge : ∀ t' ∈ t.children.flatMap postorder, t'.height < t.height := by
      intro t' ht'
      rw [List.mem_flatMap] at ht'
      obtain ⟨c, hc, hm⟩ := ht'
      have := (hch c hc).1 t' hm
      have := h t (self_mem t) c hc
      omega
    constructor
    · intro t' ht'
      rw [postorder_eq, List.mem_append, List.mem_singleton] at ht'
      rcases ht' with h1 | h1
      · have := hge t' h1; omega
      · rw [h1]
    · intro l
      by_cases hl : l = t.height
      · subst hl
        rw [postorder_eq, cntBy_append, cntBy_eq_zero _ _ _ (fun t' ht' => by have := hge t' ht'; omega)]
        have : cntBy Tree.height [t] t.height = 1 := by simp [cntBy]
        rw [this, ← postorder_eq]
        exact leafCount_pos t
      · rw [postorder_eq, cntBy_append, leafCount_append]
        have h1 := cntBy_flatMap_le Tree.height l t.children (fun c hc => (hch c hc).2 l)
        have h2 : cntBy Tree.height [t] l = 0 := cntBy_eq_zero _ _ _ (by simp; exact Ne.symm hl)
        omega

/-! ## The flat loop -/

theorem writeChildren_fields (mc node : Nat) : ∀ (cs : List Nat) (i : Nat) (A : Arr K),
    let B := writeChildren mc node i cs A
    B.nNode = A.nNode ∧ B.nLeaf = A.nLeaf ∧ B.maxLevel = A.maxLevel ∧ B.maxChild = A.maxChild ∧ B.nChild = A.nChild ∧
    B.level = A.level ∧ B.height = A.height ∧ B.ptS = A.ptS ∧ B.ptE = A.ptE ∧ B.enbox = A.enbox ∧
    B.levelN = A.levelN ∧ B.levelNodes = A.levelNodes ∧ B.heightN = A.heightN ∧ B.heightNodes = A.heightNodes := by
  intro cs
  induction cs with
  | nil => intro i A; simp [writeChildren]
  | cons c cs ih => intro i A; rw [writeChildren]; exact ih _ _

theorem writeChildren_children (mc node : Nat) : ∀ (cs : List Nat) (i : Nat) (A : Arr K) (k : Nat),
    (writeChildren mc node i cs A).children k =
      if h : node * mc + i ≤ k ∧ k < node * mc + i + cs.length then ((cs[k - (node * mc + i)]'(by omega) : Nat) : Int) else A.children k := by
  intro cs
  induction cs with
  | nil => intro i A k; rw [writeChildren, dif_neg (by simp)]
  | cons c cs ih =>
    intro i A k
    rw [writeChildren, ih]
    dsimp only
    by_cases h1 : k = node * mc + i
    · subst h1
      rw [dif_neg (by omega), dif_pos (by simp), Function.update_self]
      simp
    · by_cases h2 : node * mc + (i+1) ≤ k ∧ k < node * mc + (i+1) + cs.length
      · rw [dif_pos h2, dif_pos (by simp; omega)]
        congr 1
        have : k - (node * mc + i) = (k - (node * mc + (i+1))) + 1 := by omega
        simp only [this, List.getElem_cons_succ]
      · rw [dif_neg h2, dif_neg (by simp; omega), Function.update_of_ne h1]

theorem writeChildren_parent (mc node : Nat) : ∀ (cs : List Nat) (i : Nat) (A : Arr K) (q : Nat),
    (writeChildren mc node i cs A).parent q = if q ∈ cs then (node : Int) else A.parent q := by
  intro cs
  induction cs with
  | nil => intro i A q; simp [writeChildren]
  | cons c cs ih =>
    intro i A q
    rw [writeChildren, ih]
    dsimp only
    by_cases h : q ∈ cs
    · simp [h]
    · rw [if_neg h]
      by_cases h2 : q = c
      · subst h2; simp
      · rw [Function.update_of_ne h2, if_neg (by simp [h, h2])]

/-- The state of the arrays after the nodes `M` have been written (`base` were the array contents before). -/
structure Written (M : List (Tree K)) (A0 A : Arr K) : Prop where
  c1 : A.nNode = A0.nNode
  c2 : A.nLeaf = A0.nLeaf
  c3 : A.maxLevel = A0.maxLevel
  c4 : A.maxChild = A0.maxChild
  wide : ∀ t ∈ M, t.children.length ≤ A0.maxChild
  data : ∀ t ∈ M, A.nChild t.po = t.children.length ∧ A.level t.po = t.level ∧ A.height t.po = t.height ∧
    A.ptS t.po = t.s ∧ A.ptE t.po = t.e ∧ A.enbox t.po = t.box
  children : ∀ t ∈ M, ∀ i (h : i < t.children.length), A.children (t.po * A0.maxChild + i) = ((t.children[i].po : Nat) : Int)
  pad : ∀ t ∈ M, ∀ i, t.children.length ≤ i → i < A0.maxChild → A.children (t.po * A0.maxChild + i) = -1
  parent : ∀ t ∈ M, ∀ c ∈ t.children, A.parent c.po = (t.po : Int)
  levelN : ∀ l, A.levelN l = cntBy Tree.level M l
  levelNodes : ∀ l, (List.range (cntBy Tree.level M l)).map (fun r => A.levelNodes (l * A0.nLeaf + r)) =
    (M.filter (fun t => t.level = l)).map Tree.po
  heightN : ∀ l, A.heightN l = cntBy Tree.height M l
  heightNodes : ∀ l, (List.range (cntBy Tree.height M l)).map (fun r => A.heightNodes (l * A0.nLeaf + r)) =
    (M.filter (fun t => t.height = l)).map Tree.po

theorem slot_ne {l l' r r' n : Nat} (h : l ≠ l') (hr : r < n) (hr' : r' < n) : l * n + r ≠ l' * n + r' := by
  intro he
  rcases Nat.lt_or_ge l l' with h1 | h1
  · have : (l+1) * n ≤ l' * n := Nat.mul_le_mul_right _ h1
    rw [Nat.add_mul] at this; omega
  · have : (l'+1) * n ≤ l * n := Nat.mul_le_mul_right _ (by omega)
    rw [Nat.add_mul] at this; omega

theorem nodes_step (f : Tree K → Nat) (M : List (Tree K)) (t : Tree K) (N : Nat → Nat) (n : Nat)
    (hc : ∀ l, cntBy f (M ++ [t]) l ≤ n)
    (h : ∀ l, (List.range (cntBy f M l)).map (fun r => N (l * n + r)) = (M.filter (fun t => f t = l)).map Tree.po) (l : Nat) :
    (List.range (cntBy f (M ++ [t]) l)).map (fun r => Function.update N (f t * n + cntBy f M (f t)) t.po (l * n + r)) =
      ((M ++ [t]).filter (fun t => f t = l)).map Tree.po := by
  have hone : cntBy f [t] (f t) = 1 := by simp [cntBy]
  have hct := hc (f t)
  rw [cntBy_append, hone] at hct
  by_cases hl : l = f t
  · subst hl
    rw [cntBy_append, hone, List.range_succ, List.map_append, List.filter_append, List.map_append, ← h (f t)]
    congr 1
    · apply List.map_congr_left
      intro r hr
      rw [List.mem_range] at hr
      rw [Function.update_of_ne (by omega)]
    · simp
  · have h0 : cntBy f [t] l = 0 := cntBy_eq_zero _ _ _ (by simp; exact Ne.symm hl)
    have hcl := hc l
    rw [cntBy_append, h0, Nat.add_zero] at hcl ⊢
    rw [List.filter_append, List.map_append, ← h l]
    have : ([t].filter (fun t => f t = l)) = [] := by simp; exact Ne.symm hl
    rw [this, List.map_nil, List.append_nil]
    apply List.map_congr_left
    intro r hr
    rw [List.mem_range] at hr
    rw [Function.update_of_ne (slot_ne hl (by omega) (by omega))]

theorem cnt_step (f : Tree K → Nat) (M : List (Tree K)) (t : Tree K) (N : Nat → Nat)
    (h : ∀ l, N l = cntBy f M l) (l : Nat) :
    Function.update N (f t) (N (f t) + 1) l = cntBy f (M ++ [t]) l := by
  rw [cntBy_append]
  by_cases hl : l = f t
  · subst hl; rw [Function.update_self, h]; simp [cntBy]
  · rw [Function.update_of_ne hl, h, cntBy_eq_zero f [t] l (by simp; exact Ne.symm hl), Nat.add_zero]

theorem writeNode_step (M : List (Tree K)) (A0 A : Arr K) (t : Tree K) (h : Written M A0 A)
    (hpo : ∀ t' ∈ M, t'.po ≠ t.po) (hpos : t.po < A0.nNode) (hcs : ∀ c ∈ t.children, c.po < A0.nNode)
    (hdis : ∀ t' ∈ M, ∀ c ∈ t'.children, c.po ∉ t.children.map Tree.po)
    (hlen : t.children.length ≤ A0.maxChild)
    (hl : t.level ≤ A0.maxLevel) (hh : t.height ≤ A0.maxLevel)
    (hlc : ∀ l, cntBy Tree.level (M ++ [t]) l ≤ A0.nLeaf) (hhc : ∀ l, cntBy Tree.height (M ++ [t]) l ≤ A0.nLeaf) :
    ∃ B, writeNode t A = .ok B ∧ Written (M ++ [t]) A0 B := by
  have hone : ∀ f : Tree K → Nat, cntBy f [t] (f t) = 1 := by intro f; simp [cntBy]
  have hl1 := hlc t.level
  have hh1 := hhc t.height
  rw [cntBy_append, hone] at hl1 hh1
  unfold writeNode
  dsimp only
  rw [if_pos ⟨by rw [h.c1]; exact hpos, by
    intro c hc; rw [List.mem_map] at hc; obtain ⟨d, hd, rfl⟩ := hc; rw [h.c1]; exact hcs d hd,
    by rw [List.length_map, h.c4]; exact hlen, by rw [h.c3]; exact hl, by rw [h.levelN, h.c2]; omega,
    by rw [h.c3]; exact hh, by rw [h.heightN, h.c2]; omega⟩]
  refine ⟨_, rfl, ?_⟩
  obtain ⟨f1, f2, f3, f4, f5, f6, f7, f8, f9, f10, f11, f12, f13, f14⟩ := writeChildren_fields A.maxChild t.po (t.children.map Tree.po) 0 A
  have hch : ∀ k, (padChildren (writeChildren A.maxChild t.po 0 (t.children.map Tree.po) A).maxChild t.po (t.children.map Tree.po).length
      (writeChildren A.maxChild t.po 0 (t.children.map Tree.po) A)).children k =
      if t.po * A0.maxChild + t.children.length ≤ k ∧ k < t.po * A0.maxChild + A0.maxChild then -1
      else (writeChildren A.maxChild t.po 0 (t.children.map Tree.po) A).children k := by
    intro k
    unfold padChildren
    dsimp only
    rw [f4, h.c4, List.length_map]
  have hother : ∀ t' ∈ M, ∀ i < A0.maxChild, ¬ (t.po * A0.maxChild ≤ t'.po * A0.maxChild + i ∧ t'.po * A0.maxChild + i < t.po * A0.maxChild + A0.maxChild) := by
    intro t' ht' i hi ⟨h1, h2⟩
    have := slot_ne (n := A0.maxChild) (hpo t' ht') hi (r' := t'.po * A0.maxChild + i - t.po * A0.maxChild) (by omega)
    omega
  refine ⟨?_, ?_, ?_, ?_, ?_, ?_, ?_, ?_, ?_, ?_, ?_, ?_, ?_⟩
  · exact f1.trans h.c1
  · exact f2.trans h.c2
  · exact f3.trans h.c3
  · exact f4.trans h.c4
  · intro t' ht'
    rcases List.mem_append.1 ht' with hm | hm
    · exact h.wide t' hm
    · rw [List.mem_singleton] at hm; subst hm; exact hlen
  · intro t' ht'
    unfold padChildren
    dsimp only
    rw [f5, f6, f7, f8, f9, f10, List.length_map]
    rcases List.mem_append.1 ht' with hm | hm
    · have hne := hpo t' hm
      rw [Function.update_of_ne hne, Function.update_of_ne hne, Function.update_of_ne hne, Function.update_of_ne hne,
        Function.update_of_ne hne, Function.update_of_ne hne]
      exact h.data t' hm
    · rw [List.mem_singleton] at hm; subst hm; simp
  · intro t' ht' i hi
    rw [hch, writeChildren_children, h.c4]
    have hml : (t.children.map Tree.po).length = t.children.length := List.length_map _
    rcases List.mem_append.1 ht' with hm | hm
    · have hi' : i < A0.maxChild := lt_of_lt_of_le hi (h.wide t' hm)
      have := hother t' hm i hi'
      rw [if_neg (by omega), dif_neg (by omega)]
      exact h.children t' hm i hi
    · rw [List.mem_singleton] at hm; subst hm
      rw [if_neg (by omega), dif_pos (by omega)]
      simp
  · intro t' ht' i hi hi'
    rw [hch, writeChildren_children, h.c4]
    have hml : (t.children.map Tree.po).length = t.children.length := List.length_map _
    rcases List.mem_append.1 ht' with hm | hm
    · have := hother t' hm i hi'
      rw [if_neg (by omega), dif_neg (by omega)]
      exact h.pad t' hm i hi hi'
    · rw [List.mem_singleton] at hm; subst hm
      rw [if_pos (by omega)]
  · intro t' ht' c hc
    show (writeChildren A.maxChild t.po 0 (t.children.map Tree.po) A).parent c.po = _
    rw [writeChildren_parent]
    rcases List.mem_append.1 ht' with hm | hm
    · rw [if_neg (hdis t' hm c hc)]
      exact h.parent t' hm c hc
    · rw [List.mem_singleton] at hm; subst hm
      rw [if_pos (List.mem_map_of_mem hc)]
  · intro l
    show Function.update (writeChildren A.maxChild t.po 0 (t.children.map Tree.po) A).levelN t.level
      ((writeChildren A.maxChild t.po 0 (t.children.map Tree.po) A).levelN t.level + 1) l = _
    rw [f11]
    exact cnt_step Tree.level M t A.levelN h.levelN l
  · intro l
    have := nodes_step Tree.level M t A.levelNodes A0.nLeaf hlc h.levelNodes l
    rw [← this]
    unfold padChildren
    dsimp only
    rw [f11, f12, f2, h.c2, h.levelN]
  · intro l
    show Function.update (writeChildren A.maxChild t.po 0 (t.children.map Tree.po) A).heightN t.height
      ((writeChildren A.maxChild t.po 0 (t.children.map Tree.po) A).heightN t.height + 1) l = _
    rw [f13]
    exact cnt_step Tree.height M t A.heightN h.heightN l
  · intro l
    have := nodes_step Tree.height M t A.heightNodes A0.nLeaf hhc h.heightNodes l
    rw [← this]
    unfold padChildren
    dsimp only
    rw [f13, f14, f2, h.c2, h.heightN]

/-- The loop over a list of nodes whose numbers are distinct. -/
theorem writeAll_spec (A0 : Arr K) (L : List (Tree K))
    (hnd : (L.map Tree.po).Nodup) (hcd : (childPos L).Nodup)
    (hpos : ∀ t ∈ L, t.po < A0.nNode) (hcs : ∀ t ∈ L, ∀ c ∈ t.children, c.po < A0.nNode)
    (hlen : ∀ t ∈ L, t.children.length ≤ A0.maxChild)
    (hl : ∀ t ∈ L, t.level ≤ A0.maxLevel) (hh : ∀ t ∈ L, t.height ≤ A0.maxLevel)
    (hlc : ∀ l, cntBy Tree.level L l ≤ A0.nLeaf) (hhc : ∀ l, cntBy Tree.height L l ≤ A0.nLeaf) :
    ∀ (M N : List (Tree K)) (A : Arr K), M ++ N = L → Written M A0 A → ∃ B, writeAll N A = .ok B ∧ Written L A0 B := by
  intro M N
  induction N generalizing M with
  | nil => intro A hMN hA; rw [List.append_nil] at hMN; subst hMN; exact ⟨A, rfl, hA⟩
  | cons t N ih =>
    intro A hMN hA
    have htL : t ∈ L := by rw [← hMN]; simp
    have hMN' : (M ++ [t]) ++ N = L := by rw [← hMN]; simp
    have hcnt : ∀ f l, cntBy f (M ++ [t]) l ≤ cntBy f L l := by
      intro f l; rw [← hMN', cntBy_append f (M ++ [t])]; omega
    obtain ⟨B, hB, hW⟩ := writeNode_step M A0 A t hA
      (by
        intro t' ht' he
        rw [← hMN, List.map_append, List.map_cons, List.nodup_append] at hnd
        exact hnd.2.2 _ (List.mem_map_of_mem ht') _ (by simp) he)
      (hpos t htL) (hcs t htL)
      (by
        intro t' ht' c hc hm
        rw [← hMN, childPos_append, List.nodup_append] at hcd
        refine hcd.2.2 c.po ?_ c.po ?_ rfl
        · unfold childPos; rw [List.mem_flatMap]; exact ⟨t', ht', List.mem_map_of_mem hc⟩
        · unfold childPos; rw [List.mem_flatMap]; exact ⟨t, by simp, hm⟩)
      (hlen t htL) (hl t htL) (hh t htL) (fun l => le_trans (hcnt _ l) (hlc l)) (fun l => le_trans (hcnt _ l) (hhc l))
    rw [writeAll, hB, Res.bind_ok]
    exact ih (M ++ [t]) B hMN' hW

end H2Pack.Part
