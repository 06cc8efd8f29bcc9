import Verif.Proof.Bucket
import Verif.Spec.ClusterTree

/-! # Recursive bisection: main induction -/

namespace H2Pack.Part
open H2Pack.Utils (Box)
variable {K : Type} [Field K] [LinearOrder K] [IsStrictOrderedRing K]

/-! ## Trees -/

omit [Field K] [LinearOrder K] [IsStrictOrderedRing K] in
theorem Tree.ind {motive : Tree K → Prop} (h : ∀ t, (∀ c ∈ t.children, motive c) → motive t) : ∀ t, motive t := by
  intro t
  induction hn : sizeOf t using Nat.strong_induction_on generalizing t with
  | _ n ih =>
    apply h
    intro c hc
    apply ih (sizeOf c) _ c rfl
    cases t with
    | mk s e po l ht nn b cs =>
      have := List.sizeOf_lt_of_mem (show c ∈ cs from hc)
      rw [← hn]
      simp only [Tree.mk.sizeOf_spec]
      omega

mutual
/-- All nodes of a tree in post-order. -/
def postorder : Tree K → List (Tree K)
  | .mk s e po l h n b cs => postorders cs ++ [.mk s e po l h n b cs]
def postorders : List (Tree K) → List (Tree K)
  | [] => []
  | t :: ts => postorder t ++ postorders ts
end

omit [Field K] [LinearOrder K] [IsStrictOrderedRing K] in
theorem postorders_eq (ts : List (Tree K)) : postorders ts = ts.flatMap postorder := by
  induction ts with
  | nil => rfl
  | cons t ts ih => rw [postorders, ih]; rfl

omit [Field K] [LinearOrder K] [IsStrictOrderedRing K] in
theorem postorder_eq (t : Tree K) : postorder t = t.children.flatMap postorder ++ [t] := by
  cases t with
  | mk s e po l h n b cs => rw [postorder, postorders_eq]; rfl

omit [Field K] [LinearOrder K] [IsStrictOrderedRing K] in
theorem mem_postorder (t t' : Tree K) : t' ∈ postorder t ↔ (∃ c ∈ t.children, t' ∈ postorder c) ∨ t' = t := by
  rw [postorder_eq, List.mem_append, List.mem_flatMap, List.mem_singleton]

omit [Field K] [LinearOrder K] [IsStrictOrderedRing K] in
theorem self_mem (t : Tree K) : t ∈ postorder t := (mem_postorder t t).2 (Or.inr rfl)

omit [Field K] [LinearOrder K] [IsStrictOrderedRing K] in
theorem child_mem : ∀ (t t' c : Tree K), t' ∈ postorder t → c ∈ t'.children → c ∈ postorder t := by
  intro t
  induction t using Tree.ind with
  | _ t ih =>
    intro t' c ht hc
    rw [mem_postorder] at ht ⊢
    rcases ht with ⟨d, hd, hm⟩ | rfl
    · exact Or.inl ⟨d, hd, ih d hd t' c hm hc⟩
    · exact Or.inl ⟨c, hc, self_mem c⟩

/-- Number of leaves. -/
def leafCount (L : List (Tree K)) : Nat := (L.filter (fun t => t.children.isEmpty)).length

omit [Field K] [LinearOrder K] [IsStrictOrderedRing K] in
theorem leafCount_append (a b : List (Tree K)) : leafCount (a ++ b) = leafCount a + leafCount b := by
  unfold leafCount; rw [List.filter_append, List.length_append]

/-! ## Local correctness of a node -/

/-- Two boxes are different sub-boxes of a box. -/
def Sib (ptDim : Nat) (box b c : Box K) : Prop :=
  ∃ r r' : Nat → Nat, (∀ j < ptDim, r j ≤ 1) ∧ (∀ j < ptDim, r' j ≤ 1) ∧ (∃ j < ptDim, r j ≠ r' j) ∧ b = subBox box r ∧ c = subBox box r'

/-- What the partitioning guarantees for every node. -/
structure NodeOK (P : Params K) (t : Tree K) : Prop where
  le : t.s ≤ t.e
  inRange : t.e < P.nPoint
  leaf : t.children = [] → (t.e + 1 - t.s ≤ P.maxLeafPoints ∨ t.box.ext 0 ≤ P.maxLeafSize) ∧ t.height = 0
  inner : t.children ≠ [] → P.maxLeafPoints < t.e + 1 - t.s ∧ P.maxLeafSize < t.box.ext 0 ∧
    Tiles t.s (t.e + 1) (t.children.map (fun c => (c.s, c.e))) ∧
    t.height = (t.children.map Tree.height).foldl max 0 + 1
  nchild : t.children.length ≤ 2 ^ P.ptDim
  level : ∀ c ∈ t.children, c.level = t.level + 1
  childBox : ∀ c ∈ t.children, ∃ r : Nat → Nat, (∀ j < P.ptDim, r j ≤ 1) ∧ c.box = subBox t.box r
  sib : t.children.Pairwise (fun c d => Sib P.ptDim t.box c.box d.box)

/-- All points of the range lie in the box. -/
def InBox (ptDim : Nat) (coord : Nat → Nat → K) (s e : Nat) (box : Box K) : Prop :=
  ∀ p, s ≤ p → p ≤ e → ∀ j < ptDim, box.lo j ≤ coord p j ∧ coord p j ≤ box.lo j + box.ext j

structure Post (P : Params K) (level s e : Nat) (box : Box K) (st : St K) (t : Tree K) (st' : St K) : Prop where
  hs : t.s = s
  he : t.e = e
  hl : t.level = level
  hb : t.box = box
  perm : ∃ π, Permuted P.xptDim s (e + 1 - s) st st' π
  pos : (postorder t).map Tree.po = List.range' st.po t.nNode
  po : st'.po = st.po + t.nNode
  leaf : st'.nLeaf = st.nLeaf + leafCount (postorder t)
  lev1 : st.maxLevel ≤ st'.maxLevel
  lev2 : ∀ t' ∈ postorder t, t'.level + t'.height ≤ st'.maxLevel
  lev3 : st'.maxLevel = st.maxLevel ∨ ∃ t' ∈ postorder t, t'.level = st'.maxLevel
  ok : ∀ t' ∈ postorder t, NodeOK P t'
  sub : ∀ t' ∈ postorder t, s ≤ t'.s ∧ t'.e ≤ e
  inbox : InBox P.ptDim st.coord s e box → ∀ t' ∈ postorder t, InBox P.ptDim st'.coord t'.s t'.e t'.box

/-- Specification of a call. -/
def Spec (P : Params K) (level s e : Nat) (box : Box K) (st : St K) : Res (Tree K × St K) → Prop
  | .ok (t, st') => Post P level s e box st t st'
  | .ub => False
  | .diverge => True

structure PostL (P : Params K) (level a b : Nat) (subs : List (Nat × Nat × Box K)) (st : St K) (ts : List (Tree K)) (st' : St K) : Prop where
  shape : ts.map (fun t => (t.s, t.e, t.box)) = subs
  hl : ∀ t ∈ ts, t.level = level
  perm : ∃ π, Permuted P.xptDim a (b - a) st st' π
  pos : (ts.flatMap postorder).map Tree.po = List.range' st.po (ts.map Tree.nNode).sum
  po : st'.po = st.po + (ts.map Tree.nNode).sum
  leaf : st'.nLeaf = st.nLeaf + leafCount (ts.flatMap postorder)
  lev1 : st.maxLevel ≤ st'.maxLevel
  lev2 : ∀ t' ∈ ts.flatMap postorder, t'.level + t'.height ≤ st'.maxLevel
  lev3 : st'.maxLevel = st.maxLevel ∨ ∃ t' ∈ ts.flatMap postorder, t'.level = st'.maxLevel
  ok : ∀ t' ∈ ts.flatMap postorder, NodeOK P t'
  sub : ∀ t' ∈ ts.flatMap postorder, a ≤ t'.s ∧ t'.e < b
  inbox : (∀ x ∈ subs, InBox P.ptDim st.coord x.1 x.2.1 x.2.2) → ∀ t' ∈ ts.flatMap postorder, InBox P.ptDim st'.coord t'.s t'.e t'.box

theorem tiles_le : ∀ (l : List (Nat × Nat)) (a b : Nat), Tiles a b l → a ≤ b := by
  intro l
  induction l with
  | nil => intro a b h; exact le_of_eq h
  | cons x l ih =>
    intro a b h
    obtain ⟨s, e⟩ := x
    obtain ⟨h1, h2, h3⟩ := h
    have := ih _ _ h3
    omega

theorem tiles_mem : ∀ (l : List (Nat × Nat)) (a b : Nat), Tiles a b l → ∀ x ∈ l, a ≤ x.1 ∧ x.1 ≤ x.2 ∧ x.2 < b := by
  intro l
  induction l with
  | nil => intro a b h x hx; simp at hx
  | cons y l ih =>
    intro a b h x hx
    obtain ⟨s, e⟩ := y
    obtain ⟨h1, h2, h3⟩ := h
    have := tiles_le _ _ _ h3
    rcases List.mem_cons.1 hx with hx | hx
    · rw [hx]; dsimp only; omega
    · have := ih _ _ h3 x hx; omega

omit [IsStrictOrderedRing K] in
/-- In-box is preserved by permutations inside the range. -/
theorem InBox.perm {P : Params K} (hx : P.ptDim ≤ P.xptDim) {s n : Nat} {st st' : St K} {π : Equiv.Perm Nat}
    (h : Permuted P.xptDim s n st st' π) {a e : Nat} {box : Box K}
    (hr : (s = a ∧ s + n = e + 1) ∨ (∀ p, a ≤ p → p ≤ e → ¬ (s ≤ p ∧ p < s + n))) (hb : InBox P.ptDim st.coord a e box) :
    InBox P.ptDim st'.coord a e box := by
  intro p h1 h2 j hj
  rw [h.2.2 p j (by omega)]
  rcases hr with ⟨r1, r2⟩ | hr
  · have := (perm_maps h.1 p).2 (by omega)
    exact hb (π p) (by omega) (by omega) j hj
  · rw [h.1 p (hr p h1 h2)]
    exact hb p h1 h2 j hj

theorem partChildren_spec (P : Params K) (hx : P.ptDim ≤ P.xptDim) (level : Nat) (f : Nat → Nat → Box K → St K → Res (Tree K × St K))
    (hf : ∀ s e b st, s ≤ e → e < P.nPoint → Spec P level s e b st (f s e b st)) :
    ∀ (subs : List (Nat × Nat × Box K)) (a b : Nat) (st : St K), Tiles a b (subs.map (fun x => (x.1, x.2.1))) → b ≤ P.nPoint →
    match partChildren f subs st with
    | .ok (ts, st') => PostL P level a b subs st ts st'
    | .ub => False
    | .diverge => True := by
  intro subs
  induction subs with
  | nil =>
    intro a b st _ _
    exact ⟨rfl, by simp, ⟨1, fun _ _ => rfl, fun _ => rfl, fun _ _ _ => rfl⟩, rfl, rfl, rfl, le_refl _, by simp, Or.inl rfl, by simp, by simp, by simp⟩
  | cons x subs ih =>
    intro a b st ht hb
    obtain ⟨s, e, box⟩ := x
    obtain ⟨h1, h2, h3⟩ := ht
    dsimp only at h1 h2 h3
    have hle := tiles_le _ _ _ h3
    rw [partChildren]
    have hsp := hf s e box st h2 (by omega)
    cases hc : f s e box st with
    | ub => rw [hc] at hsp; exact hsp.elim
    | diverge => simp
    | ok r =>
      obtain ⟨t, st1⟩ := r
      rw [hc] at hsp
      have hp : Post P level s e box st t st1 := hsp
      simp only [Res.bind_ok]
      have hrec := ih (e+1) b st1 h3 hb
      cases hc2 : partChildren f subs st1 with
      | ub => rw [hc2] at hrec; exact hrec.elim
      | diverge => simp
      | ok r2 =>
        obtain ⟨ts, st2⟩ := r2
        rw [hc2] at hrec
        have hr : PostL P level (e+1) b subs st1 ts st2 := hrec
        simp only [Res.bind_ok]
        obtain ⟨π1, q1⟩ := hp.perm
        obtain ⟨π2, q2⟩ := hr.perm
        subst h1
        refine ⟨?_, ?_, ⟨_, q1.trans q2 ⟨le_refl _, by omega⟩ ⟨by omega, by omega⟩⟩, ?_, ?_, ?_, ?_, ?_, ?_, ?_, ?_, ?_⟩
        · rw [List.map_cons, hr.shape, hp.hs, hp.he, hp.hb]
        · intro t' ht'
          rcases List.mem_cons.1 ht' with h | h
          · rw [h]; exact hp.hl
          · exact hr.hl t' h
        · rw [List.flatMap_cons, List.map_append, hp.pos, hr.pos, hp.po, List.map_cons, List.sum_cons, ← List.range'_append]
          simp
        · rw [hr.po, hp.po, List.map_cons, List.sum_cons]; omega
        · rw [hr.leaf, hp.leaf, List.flatMap_cons, leafCount_append]; omega
        · exact le_trans hp.lev1 hr.lev1
        · intro t' ht'
          rw [List.flatMap_cons, List.mem_append] at ht'
          rcases ht' with h | h
          · exact le_trans (hp.lev2 t' h) hr.lev1
          · exact hr.lev2 t' h
        · rw [List.flatMap_cons]
          rcases hr.lev3 with h | ⟨t', h1, h2⟩
          · rw [h]
            rcases hp.lev3 with h' | ⟨t', h1, h2⟩
            · exact Or.inl h'
            · exact Or.inr ⟨t', List.mem_append_left _ h1, h2⟩
          · exact Or.inr ⟨t', List.mem_append_right _ h1, h2⟩
        · intro t' ht'
          rw [List.flatMap_cons, List.mem_append] at ht'
          rcases ht' with h | h
          · exact hp.ok t' h
          · exact hr.ok t' h
        · intro t' ht'
          rw [List.flatMap_cons, List.mem_append] at ht'
          rcases ht' with h | h
          · have := hp.sub t' h; omega
          · have := hr.sub t' h; omega
        · intro hin t' ht'
          rw [List.flatMap_cons, List.mem_append] at ht'
          rcases ht' with h | h
          · have hs := hp.sub t' h
            exact (hp.inbox (hin (s, e, box) (by simp)) t' h).perm hx q2 (Or.inr (fun p h3 h4 => by omega))
          · apply hr.inbox _ t' h
            intro x hxm
            have hm := tiles_mem _ _ _ h3 (x.1, x.2.1) (List.mem_map.2 ⟨x, hxm, rfl⟩)
            dsimp only at hm
            exact (hin x (List.mem_cons_of_mem _ hxm)).perm hx q1 (Or.inr (fun p h3 h4 => by omega))

/-- The ranges of the non-empty children tile the range of the node. -/
theorem subList_tiles (s M : Nat) (cnt : Nat → Nat) (g : Nat → Box K) : ∀ k c, c + k = M →
    Tiles (s + displs cnt c) (s + displs cnt M)
      ((((List.range' c k).filter (fun c => cnt c ≠ 0)).map fun c => (s + displs cnt c, s + displs cnt (c+1) - 1, g c)).map (fun x => (x.1, x.2.1))) := by
  intro k
  induction k with
  | zero => intro c hc; rw [show c = M by omega]; exact rfl
  | succ k ih =>
    intro c hc
    have hi := ih (c+1) (by omega)
    rw [List.range'_succ, List.filter_cons]
    by_cases h0 : cnt c = 0
    · rw [if_neg (by simp [h0])]
      have : displs cnt (c+1) = displs cnt c := by rw [displs, h0]; rfl
      rw [this] at hi
      exact hi
    · rw [if_pos (by simp [h0]), List.map_cons, List.map_cons]
      have : displs cnt (c+1) = displs cnt c + cnt c := rfl
      refine ⟨rfl, by dsimp only; omega, ?_⟩
      dsimp only
      rw [show s + displs cnt (c+1) - 1 + 1 = s + displs cnt (c+1) by omega]
      exact hi

theorem foldl_max_ge (l : List Nat) : ∀ a, a ≤ l.foldl max a ∧ ∀ x ∈ l, x ≤ l.foldl max a := by
  induction l with
  | nil => intro a; exact ⟨le_refl _, by simp⟩
  | cons y l ih =>
    intro a
    rw [List.foldl_cons]
    obtain ⟨h1, h2⟩ := ih (max a y)
    refine ⟨le_trans (le_max_left _ _) h1, ?_⟩
    intro x hx
    rcases List.mem_cons.1 hx with h | h
    · rw [h]; exact le_trans (le_max_right _ _) h1
    · exact h2 x h

theorem foldl_max_mem (l : List Nat) : ∀ a, l.foldl max a = a ∨ l.foldl max a ∈ l := by
  induction l with
  | nil => intro a; exact Or.inl rfl
  | cons y l ih =>
    intro a
    rw [List.foldl_cons]
    rcases ih (max a y) with h | h
    · rw [h]
      rcases le_total a y with hh | hh
      · right; rw [max_eq_right hh]; simp
      · left; exact max_eq_left hh
    · exact Or.inr (List.mem_cons_of_mem _ h)

theorem eps_pos : (0 : K) < eps := by unfold eps; positivity

theorem subBox_contains (box : Box K) (x : Nat → K) (j : Nat) (r : Nat → Nat) (hr : r j = relBit box x j)
    (h1 : box.lo j ≤ x j) (h2 : x j ≤ box.lo j + box.ext j) :
    (subBox box r).lo j ≤ x j ∧ x j ≤ (subBox box r).lo j + (subBox box r).ext j := by
  have he := eps_pos (K := K)
  unfold subBox
  dsimp only
  rw [hr]
  unfold relBit
  split
  · rename_i h
    simp only [Nat.cast_one, mul_one]
    constructor <;> linarith
  · rename_i h
    rw [not_le] at h
    simp only [Nat.cast_zero, mul_zero, add_zero]
    constructor <;> linarith

theorem partition_spec (P : Params K) (hx : P.ptDim ≤ P.xptDim) (g : Nat → Nat → Nat) : ∀ (fuel level s e : Nat) (box : Box K) (st : St K),
    s ≤ e → e < P.nPoint → Spec P level s e box st (partition P g fuel level s e box st) := by
  intro fuel
  induction fuel with
  | zero => intro level s e box st _ _; exact True.intro
  | succ fuel ih =>
    intro level s e box st hse hen
    rw [partition]
    dsimp only
    by_cases hleaf : e + 1 - s ≤ P.maxLeafPoints ∨ box.ext 0 ≤ P.maxLeafSize
    · rw [if_pos hleaf]
      have hpo : postorder (Tree.mk s e st.po level 0 1 box [] : Tree K) = [Tree.mk s e st.po level 0 1 box []] := rfl
      refine ⟨rfl, rfl, rfl, rfl, ⟨1, fun _ _ => rfl, fun _ => rfl, fun _ _ _ => rfl⟩, ?_, rfl, ?_, le_max_left _ _, ?_, ?_, ?_, ?_, ?_⟩
      · rw [hpo]; rfl
      · rw [hpo]; rfl
      · rw [hpo]; intro t' ht'; rw [List.mem_singleton] at ht'; rw [ht']; exact le_max_right _ _
      · rw [hpo]
        rcases le_total level st.maxLevel with h | h
        · exact Or.inl (max_eq_left h)
        · exact Or.inr ⟨_, List.mem_singleton.2 rfl, (max_eq_right h).symm⟩
      · rw [hpo]; intro t' ht'; rw [List.mem_singleton] at ht'; rw [ht']
        exact ⟨hse, hen, fun _ => ⟨hleaf, rfl⟩, fun h => absurd rfl h, Nat.zero_le _, by simp [Tree.children], by simp [Tree.children], by simp [Tree.children]⟩
      · rw [hpo]; intro t' ht'; rw [List.mem_singleton] at ht'; rw [ht']; exact ⟨le_refl _, le_refl _⟩
      · rw [hpo]; intro hin t' ht'; rw [List.mem_singleton] at ht'; rw [ht']; exact hin
    · rw [if_neg hleaf]
      rw [not_or, not_le, not_le] at hleaf
      obtain ⟨b, e1, e2, ⟨π, hπ⟩, e4⟩ := sort_spec P s (e + 1 - s) (by omega) box { st with maxLevel := max st.maxLevel level }
      dsimp only at e1 e2 e4
      rw [e1]
      simp only [Res.bind_ok]
      rw [if_pos e2]
      generalize hci : (fun i => childIdx P.ptDim box (st.coord (s + i))) = ci at *
      generalize hrel : subRel ci (fun i j => relBit box (st.coord (s + i)) j) (e + 1 - s) g = rel
      have htile : Tiles s (e+1) ((subList P.ptDim s (subCount ci (e+1-s)) rel box).map (fun x => (x.1, x.2.1))) := by
        have := subList_tiles (K := K) s (2 ^ P.ptDim) (subCount ci (e+1-s)) (fun c => subBox box (rel c)) (2 ^ P.ptDim) 0 (by omega)
        rw [e2] at this
        unfold subList
        rw [List.range_eq_range']
        have h2 : s + displs (subCount ci (e+1-s)) 0 = s := rfl
        rw [h2, show s + (e + 1 - s) = e + 1 by omega] at this
        exact this
      have hrec := partChildren_spec P hx (level+1) (partition P g fuel (level+1)) (fun s e b st h1 h2 => ih (level+1) s e b st h1 h2)
        (subList P.ptDim s (subCount ci (e+1-s)) rel box) s (e+1)
        ⟨b.coord, b.idx, st.po, st.nLeaf, max st.maxLevel level⟩ htile (by omega)
      cases hpc : partChildren (partition P g fuel (level+1)) (subList P.ptDim s (subCount ci (e+1-s)) rel box)
        ⟨b.coord, b.idx, st.po, st.nLeaf, max st.maxLevel level⟩ with
      | ub => rw [hpc] at hrec; exact hrec.elim
      | diverge => exact True.intro
      | ok r =>
        obtain ⟨cs, st2⟩ := r
        rw [hpc] at hrec
        have hr : PostL P (level+1) s (e+1) _ _ cs st2 := hrec
        simp only [Res.bind_ok]
        show Post P level s e box st _ _
        have hne : cs ≠ [] := by
          intro hcs
          have h1 := hr.shape
          rw [hcs] at h1
          rw [← h1] at htile
          simp [Tiles] at htile
          omega
        have hempty : cs.isEmpty = false := by cases cs with | nil => exact absurd rfl hne | cons _ _ => rfl
        have hpo : ∀ po h nn, postorder (Tree.mk s e po level h nn box cs : Tree K) =
            cs.flatMap postorder ++ [Tree.mk s e po level h nn box cs] := fun po h nn => postorder_eq _
        have hshape2 : cs.map (fun c => (c.s, c.e)) = (subList P.ptDim s (subCount ci (e+1-s)) rel box).map (fun x => (x.1, x.2.1)) := by
          rw [← hr.shape, List.map_map]; rfl
        have hmemsub : ∀ c ∈ cs, (c.s, c.e, c.box) ∈ subList P.ptDim s (subCount ci (e+1-s)) rel box := by
          intro c hc; rw [← hr.shape]; exact List.mem_map.2 ⟨c, hc, rfl⟩
        -- boxes of children
        have hbits : ∀ c k, k < e + 1 - s → ci k = c → ∀ j < P.ptDim, rel c j = relBit box (st.coord (s + k)) j := by
          intro c k hk hck j hj
          obtain ⟨i, hi, h1, h2⟩ := subRel_spec ci (fun i j => relBit box (st.coord (s + i)) j) g (e+1-s) c ⟨k, hk, hck⟩
          rw [← hrel, h2]
          rw [← hck] at h1
          rw [← hci] at h1
          dsimp only at h1
          rw [childIdx_eq, childIdx_eq] at h1
          exact binSum_inj (relBit_le _ _) (relBit_le _ _) _ h1 j hj
        have hcbox : ∀ c ∈ cs, ∃ r : Nat → Nat, (∀ j < P.ptDim, r j ≤ 1) ∧ c.box = subBox box r := by
          intro c hc
          have h1 := hmemsub c hc
          unfold subList at h1
          rw [List.mem_map] at h1
          obtain ⟨q, hq, hqe⟩ := h1
          rw [List.mem_filter] at hq
          simp only [Prod.mk.injEq] at hqe
          have hq2 : cntBelow ci (e+1-s) q ≠ 0 := by rw [← subCount_eq]; simpa using hq.2
          obtain ⟨k, hk, hck⟩ := cntBelow_pos hq2
          exact ⟨rel q, fun j hj => by rw [hbits q k hk hck j hj]; exact relBit_le _ _ _, hqe.2.2.symm⟩
        have hsib : cs.Pairwise (fun c d => Sib P.ptDim box c.box d.box) := by
          have h1 : (subList P.ptDim s (subCount ci (e+1-s)) rel box).Pairwise (fun x y => Sib P.ptDim box x.2.2 y.2.2) := by
            unfold subList
            rw [List.pairwise_map]
            refine List.Pairwise.imp_of_mem ?_ (List.Pairwise.filter _ List.pairwise_lt_range)
            intro q q' hq hq' hlt
            rw [List.mem_filter] at hq hq'
            have hq2 : cntBelow ci (e+1-s) q ≠ 0 := by rw [← subCount_eq]; simpa using hq.2
            have hq2' : cntBelow ci (e+1-s) q' ≠ 0 := by rw [← subCount_eq]; simpa using hq'.2
            obtain ⟨k, hk, hck⟩ := cntBelow_pos hq2
            obtain ⟨k', hk', hck'⟩ := cntBelow_pos hq2'
            refine ⟨rel q, rel q', fun j hj => by rw [hbits q k hk hck j hj]; exact relBit_le _ _ _,
              fun j hj => by rw [hbits q' k' hk' hck' j hj]; exact relBit_le _ _ _, ?_, rfl, rfl⟩
            by_contra hcon
            have hall : ∀ j < P.ptDim, relBit box (st.coord (s + k)) j = relBit box (st.coord (s + k')) j := by
              intro j hj
              rw [← hbits q k hk hck j hj, ← hbits q' k' hk' hck' j hj]
              by_contra hne'
              exact hcon ⟨j, hj, hne'⟩
            have : ci k = ci k' := by
              rw [← hci]
              dsimp only
              rw [childIdx_eq, childIdx_eq]
              exact binSum_congr hall
            omega
          rw [← hr.shape, List.pairwise_map] at h1
          exact h1
        have hlev : ∀ c ∈ cs, c.level + c.height ≤ st2.maxLevel := fun c hc =>
          hr.lev2 c (List.mem_flatMap.2 ⟨c, hc, self_mem c⟩)
        refine ⟨rfl, rfl, rfl, rfl, ?_, ?_, ?_, ?_, ?_, ?_, ?_, ?_, ?_, ?_⟩
        · obtain ⟨π2, q2⟩ := hr.perm
          have q1 : Permuted P.xptDim s (e+1-s) st ⟨b.coord, b.idx, st.po, st.nLeaf, max st.maxLevel level⟩ π := hπ
          obtain ⟨r1, r2, r3⟩ := q1.trans q2 (s := s) (n := e + 1 - s) ⟨le_refl _, le_refl _⟩ ⟨le_refl _, le_refl _⟩
          exact ⟨_, r1, r2, r3⟩
        · rw [hpo, List.map_append, hr.pos]
          show _ = List.range' st.po ((cs.map Tree.nNode).sum + 1)
          rw [← List.range'_append]
          simp [Tree.po, hr.po]
        · show st2.po + 1 = st.po + ((cs.map Tree.nNode).sum + 1)
          rw [hr.po]; dsimp only; omega
        · rw [hpo, leafCount_append]
          show st2.nLeaf = _
          rw [hr.leaf]
          simp [leafCount, Tree.children, hempty]
        · exact le_trans (le_max_left _ _) hr.lev1
        · rw [hpo]
          intro t' ht'
          rw [List.mem_append, List.mem_singleton] at ht'
          rcases ht' with h | h
          · exact hr.lev2 t' h
          · rw [h]
            show level + ((cs.map Tree.height).foldl max 0 + 1) ≤ st2.maxLevel
            rcases foldl_max_mem (cs.map Tree.height) 0 with h0 | h0
            · rw [h0]
              obtain ⟨c, hc⟩ := List.exists_mem_of_ne_nil cs hne
              have := hlev c hc
              have := hr.hl c hc
              omega
            · rw [List.mem_map] at h0
              obtain ⟨c, hc, hch⟩ := h0
              rw [← hch]
              have := hlev c hc
              have := hr.hl c hc
              omega
        · rw [hpo]
          rcases hr.lev3 with h | ⟨t', h1, h2⟩
          · dsimp only at h ⊢
            rw [h]
            rcases le_total level st.maxLevel with hh | hh
            · exact Or.inl (max_eq_left hh)
            · exact Or.inr ⟨_, List.mem_append_right _ (List.mem_singleton.2 rfl), (max_eq_right hh).symm⟩
          · exact Or.inr ⟨t', List.mem_append_left _ h1, h2⟩
        · rw [hpo]
          intro t' ht'
          rw [List.mem_append, List.mem_singleton] at ht'
          rcases ht' with h | h
          · exact hr.ok t' h
          · rw [h]
            refine ⟨hse, hen, fun h => absurd h hne, fun _ => ⟨hleaf.1, hleaf.2, ?_, rfl⟩, ?_, hr.hl, hcbox, hsib⟩
            · show Tiles s (e+1) (cs.map (fun c => (c.s, c.e)))
              rw [hshape2]; exact htile
            · show cs.length ≤ _
              have : cs.length = (subList P.ptDim s (subCount ci (e+1-s)) rel box).length := by
                rw [← hr.shape, List.length_map]
              rw [this, subList, List.length_map]
              exact le_trans (List.length_filter_le _ _) (by rw [List.length_range])
        · rw [hpo]
          intro t' ht'
          rw [List.mem_append, List.mem_singleton] at ht'
          rcases ht' with h | h
          · have := hr.sub t' h; omega
          · rw [h]; exact ⟨le_refl _, le_refl _⟩
        · rw [hpo]
          intro hin t' ht'
          rw [List.mem_append, List.mem_singleton] at ht'
          rcases ht' with h | h
          · apply hr.inbox _ t' h
            intro x hxm p hp1 hp2 j hj
            have hm := tiles_mem _ _ _ htile (x.1, x.2.1) (List.mem_map.2 ⟨x, hxm, rfl⟩)
            dsimp only at hm
            unfold subList at hxm
            rw [List.mem_map] at hxm
            obtain ⟨q, hq, rfl⟩ := hxm
            dsimp only at hp1 hp2 hm ⊢
            have hd : displs (subCount ci (e+1-s)) (q+1) = displs (subCount ci (e+1-s)) q + subCount ci (e+1-s) q := rfl
            have hq0 : subCount ci (e+1-s) q ≠ 0 := by have := (List.mem_filter.1 hq).2; simpa using this
            obtain ⟨i, hi, hic, hico⟩ := e4 q (p - s) (by omega) (by omega) (by omega)
            have hco := hico j (by omega)
            rw [show s + (p - s) = p by omega] at hco
            rw [hco]
            have hin' := hin (s + i) (by omega) (by omega) j hj
            exact subBox_contains box (st.coord (s + i)) j (rel q)
              (hbits q i hi (by rw [← hci]; exact hic) j hj) hin'.1 hin'.2
          · rw [h]
            obtain ⟨π2, q2⟩ := hr.perm
            have q1 : Permuted P.xptDim s (e+1-s) st ⟨b.coord, b.idx, st.po, st.nLeaf, max st.maxLevel level⟩ π := hπ
            have h1 := hin.perm hx q1 (Or.inl ⟨rfl, by omega⟩)
            exact h1.perm hx q2 (Or.inl ⟨rfl, by show s + (e + 1 - s) = e + 1; omega⟩)

end H2Pack.Part
