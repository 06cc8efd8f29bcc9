import Verif.Model.IntVec
import Mathlib.Tactic.Linarith

/-! # Properties of the growable integer vector (C02) -/

namespace H2Pack.IntVec

/-- Specification: the abstract content is the list of the first `len` elements. -/
def Vec.toList (v : Vec) : List Int := (List.range v.len).map v.data

/-- Specification of the operations on lists. -/
def specOp (l : List Int) : Op → List Int
  | .push x => l ++ [x]
  | .concat xs => l ++ xs
  | .concatSelf => l ++ l
  | .setCap _ => l
  | .reset => []

/-- Representation invariant. -/
def Vec.WF (v : Vec) : Prop := v.len ≤ v.cap ∧ 1 ≤ v.cap

theorem toList_len (v : Vec) : v.toList.length = v.len := by simp [Vec.toList]

theorem toList_eq {v w : Vec} (hl : v.len = w.len) (h : ∀ k < v.len, v.data k = w.data k) :
    v.toList = w.toList := by
  unfold Vec.toList
  rw [← hl]
  apply List.map_congr_left
  intro k hk
  exact h k (List.mem_range.1 hk)

theorem setCapacity_toList (v : Vec) (c : Nat) (g : Nat → Int) :
    (setCapacity v c g).toList = v.toList := by
  unfold setCapacity
  split
  · exact toList_eq rfl (fun k hk => by simp at hk; simp [hk])
  · rfl

theorem setCapacity_len (v : Vec) (c : Nat) (g : Nat → Int) : (setCapacity v c g).len = v.len := by
  unfold setCapacity; split <;> rfl

theorem setCapacity_cap (v : Vec) (c : Nat) (g : Nat → Int) : (setCapacity v c g).cap = max v.cap c := by
  unfold setCapacity; split
  · dsimp only; omega
  · omega

theorem append_copy (v : Vec) (m : Nat) (src : Nat → Int) :
    (⟨v.cap, v.len + m, copyTo v.data v.len m src⟩ : Vec).toList = v.toList ++ (List.range m).map src := by
  unfold Vec.toList
  dsimp only
  rw [List.range_add, List.map_append, List.map_map]
  congr 1
  · apply List.map_congr_left
    intro k hk
    rw [List.mem_range] at hk
    simp [copyTo]; omega
  · apply List.map_congr_left
    intro k hk
    rw [List.mem_range] at hk
    simp [copyTo, hk]

theorem step_spec (v : Vec) (op : Op) (g : Nat → Int) (h : v.WF) :
    ∃ v', run v op g = .ok v' ∧ v'.WF ∧ v'.toList = specOp v.toList op := by
  obtain ⟨h1, h2⟩ := h
  cases op with
  | push x =>
    unfold run pushBack
    dsimp only
    generalize hw : (if v.cap = v.len then setCapacity v (v.cap * 2) g else v) = w
    have hwl : w.len = v.len := by rw [← hw]; split; exact setCapacity_len ..; rfl
    have hwt : w.toList = v.toList := by rw [← hw]; split; exact setCapacity_toList ..; rfl
    have hwc : w.len < w.cap := by
      rw [hwl, ← hw]; split
      · rw [setCapacity_cap]; omega
      · omega
    rw [if_pos hwc]
    refine ⟨_, rfl, ⟨by dsimp only; omega, by dsimp only; omega⟩, ?_⟩
    unfold specOp
    rw [← hwt]
    have : (⟨w.cap, w.len + 1, Function.update w.data w.len x⟩ : Vec).toList =
        (⟨w.cap, w.len + 1, copyTo w.data w.len 1 (fun _ => x)⟩ : Vec).toList := by
      refine toList_eq (v := ⟨w.cap, w.len + 1, Function.update w.data w.len x⟩)
        (w := ⟨w.cap, w.len + 1, copyTo w.data w.len 1 (fun _ => x)⟩) rfl ?_
      intro k hk
      dsimp only at hk ⊢
      by_cases hkl : k = w.len
      · subst hkl; simp [copyTo]
      · rw [Function.update_of_ne hkl]; simp [copyTo]; omega
    rw [this, append_copy]; simp
  | concat xs =>
    have hL : (List.range (ofList xs).len).map (ofList xs).data = xs := by
      apply List.ext_getElem
      · simp [ofList]
      · intro i h1 h2; simp [ofList]; rw [List.getElem?_eq_getElem h2]; rfl
    have hLc : (ofList xs).len ≤ (ofList xs).cap := le_refl _
    unfold run concatenate
    dsimp only
    generalize ofList xs = L at hL hLc
    generalize hw : (if L.len + v.len > v.cap then setCapacity v (L.len + v.len) g else v) = w
    have hwl : w.len = v.len := by rw [← hw]; split; exact setCapacity_len ..; rfl
    have hwt : w.toList = v.toList := by rw [← hw]; split; exact setCapacity_toList ..; rfl
    have hwc : v.len + L.len ≤ w.cap := by
      rw [← hw]; split
      · rw [setCapacity_cap]; omega
      · omega
    have hwc2 : 1 ≤ w.cap := by
      rw [← hw]; split
      · rw [setCapacity_cap]; omega
      · omega
    rw [if_pos ⟨hwc, hLc⟩]
    refine ⟨_, rfl, ⟨by dsimp only; omega, hwc2⟩, ?_⟩
    unfold specOp
    rw [← hwt, ← hwl, Nat.add_comm L.len w.len, append_copy, hL]
  | concatSelf =>
    unfold run concatSelf
    dsimp only
    generalize hw : (if v.len + v.len > v.cap then setCapacity v (v.len + v.len) g else v) = w
    have hwl : w.len = v.len := by rw [← hw]; split; exact setCapacity_len ..; rfl
    have hwt : w.toList = v.toList := by rw [← hw]; split; exact setCapacity_toList ..; rfl
    have hwc : v.len + v.len ≤ w.cap := by
      rw [← hw]; split
      · rw [setCapacity_cap]; omega
      · omega
    have hwc2 : 1 ≤ w.cap := by
      rw [← hw]; split
      · rw [setCapacity_cap]; omega
      · omega
    rw [if_pos hwc]
    refine ⟨_, rfl, ⟨by dsimp only; omega, hwc2⟩, ?_⟩
    unfold specOp
    rw [← hwt, ← hwl, append_copy]
    rfl
  | setCap c =>
    refine ⟨_, rfl, ⟨?_, ?_⟩, setCapacity_toList ..⟩
    · rw [setCapacity_len, setCapacity_cap]; omega
    · rw [setCapacity_cap]; omega
  | reset => exact ⟨_, rfl, ⟨by simp [resetVec], by simp [resetVec]⟩, by simp [resetVec, Vec.toList, specOp]⟩

/-- A history of calls; `garbage n` is the content of the memory allocated by the `n`-th call. -/
def runAll (v : Vec) (g : Nat → Nat → Int) : Nat → List Op → Res Vec
  | _, [] => .ok v
  | n, op :: ops => do
    let v ← run v op (g n)
    runAll v g (n+1) ops

/-- **C02**.  After initialisation with any capacity other than 0 (a negative one means 128), every
sequence of push / concatenate / self-concatenate / set-capacity / reset calls completes without an
access outside the allocated buffer and the content is exactly the list computed by the same operations
on lists, whatever the fresh memory contains. -/
theorem C02_history (capacity : Int) (hc : capacity ≠ 0) (g0 : Nat → Int) (g : Nat → Nat → Int) (ops : List Op) :
    ∃ v, runAll (init capacity g0) g 0 ops = .ok v ∧ v.len ≤ v.cap ∧ v.toList = ops.foldl specOp [] := by
  have gen : ∀ (ops : List Op) (n : Nat) (v : Vec), v.WF →
      ∃ v', runAll v g n ops = .ok v' ∧ v'.WF ∧ v'.toList = ops.foldl specOp v.toList := by
    intro ops
    induction ops with
    | nil => intro n v h; exact ⟨v, rfl, h, rfl⟩
    | cons op ops ih =>
      intro n v h
      obtain ⟨v1, e1, w1, t1⟩ := step_spec v op (g n) h
      obtain ⟨v2, e2, w2, t2⟩ := ih (n+1) v1 w1
      refine ⟨v2, ?_, w2, by rw [t2, t1]; rfl⟩
      rw [runAll, e1]; exact e2
  have hwf : (init capacity g0).WF := by
    unfold init Vec.WF
    dsimp only
    split <;> omega
  obtain ⟨v, h1, h2, h3⟩ := gen ops 0 (init capacity g0) hwf
  exact ⟨v, h1, h2.1, by rw [h3]; simp [init, Vec.toList]⟩

/-- With capacity 0 the first push writes outside the buffer (doubling 0 never grows it): the
hypothesis of C02 is needed. -/
theorem C02_zero_capacity_ub (g0 g : Nat → Int) (x : Int) : pushBack (init 0 g0) x g = .ub := by
  simp [pushBack, init, setCapacity]

/-- Gathering into another vector copies the selected elements in order. -/
theorem gatherLoop_other (src : Nat → Int) : ∀ (ks : List Nat) (i : Nat) (dst : Nat → Int) (k : Nat),
    gatherLoop src false i ks dst k =
      if h : i ≤ k ∧ k < i + ks.length then src (ks[k - i]'(by omega)) else dst k := by
  intro ks
  induction ks with
  | nil => intro i dst k; rw [gatherLoop]; simp
  | cons a ks ih =>
    intro i dst k
    rw [gatherLoop, ih]
    by_cases h1 : k = i
    · subst h1; simp
    · by_cases h2 : i + 1 ≤ k ∧ k < i + 1 + ks.length
      · have h3 : i ≤ k ∧ k < i + (a :: ks).length := by simp; omega
        rw [dif_pos h2, dif_pos h3]
        have : k - i = (k - (i+1)) + 1 := by omega
        simp only [this, List.getElem_cons_succ]
      · have h3 : ¬ (i ≤ k ∧ k < i + (a :: ks).length) := by simp; omega
        rw [dif_neg h2, dif_neg h3, Function.update_of_ne h1]

theorem gatherLoop_inPlace (src : Nat → Int) : ∀ (ks : List Nat) (i : Nat) (dst : Nat → Int) (k : Nat),
    (∀ m (hm : m < ks.length), i + m ≤ ks[m]) →
    gatherLoop src true i ks dst k =
      if h : i ≤ k ∧ k < i + ks.length then dst (ks[k - i]'(by omega)) else dst k := by
  intro ks
  induction ks with
  | nil => intro i dst k _; rw [gatherLoop]; simp
  | cons a ks ih =>
    intro i dst k hge
    have hge' : ∀ m (hm : m < ks.length), i + 1 + m ≤ ks[m] := by
      intro m hm
      have := hge (m+1) (by simpa using hm)
      simp only [List.getElem_cons_succ] at this
      omega
    rw [gatherLoop, ih _ _ _ hge']
    simp only [if_true]
    by_cases h1 : k = i
    · subst h1; simp
    · by_cases h2 : i + 1 ≤ k ∧ k < i + 1 + ks.length
      · have h3 : i ≤ k ∧ k < i + (a :: ks).length := by simp; omega
        rw [dif_pos h2, dif_pos h3]
        have : k - i = (k - (i+1)) + 1 := by omega
        simp only [this, List.getElem_cons_succ]
        rw [Function.update_of_ne]
        have := hge' (k - (i+1)) (by omega)
        omega
      · have h3 : ¬ (i ≤ k ∧ k < i + (a :: ks).length) := by simp; omega
        rw [dif_neg h2, dif_neg h3, Function.update_of_ne h1]

/-- a strictly increasing list of naturals is pointwise at least its index -/
theorem strictMono_ge (ks : List Nat) (h : ks.Pairwise (· < ·)) : ∀ m (hm : m < ks.length), m ≤ ks[m] := by
  intro m
  induction m with
  | zero => intro _; omega
  | succ m ih =>
    intro hm
    have := ih (by omega)
    have := List.pairwise_iff_getElem.1 h m (m+1) (by omega) hm (by omega)
    omega

/-- **C42**.  `H2P_int_vec_gather` into a different vector, for any index list inside the source. -/
theorem C42_gather (src dst : Vec) (hs : src.WF) (idx : List Nat) (hidx : ∀ k ∈ idx, k < src.len) (g : Nat → Int) :
    ∃ v, gather src idx dst g = .ok v ∧ v.toList = idx.map src.data := by
  unfold gather
  rw [if_pos (by
    rw [List.all_eq_true]; intro k hk
    have := hidx k hk; have := hs.1; simp; omega)]
  refine ⟨_, rfl, ?_⟩
  unfold Vec.toList
  dsimp only
  apply List.ext_getElem
  · simp
  · intro i h1 h2
    simp only [List.length_map, List.length_range] at h1
    rw [List.getElem_map, List.getElem_map, List.getElem_range, gatherLoop_other, dif_pos ⟨by omega, by omega⟩]
    simp

/-- **C42** (in place).  With the same vector as source and destination the result is the same provided
the index list is strictly increasing (as the skeleton selections are). -/
theorem C42_gather_in_place (v : Vec) (hv : v.WF) (idx : List Nat) (hidx : ∀ k ∈ idx, k < v.len)
    (hinc : idx.Pairwise (· < ·)) (g : Nat → Int) :
    ∃ w, gatherInPlace v idx g = .ok w ∧ w.toList = idx.map v.data := by
  unfold gatherInPlace
  dsimp only
  rw [if_pos (by
    rw [List.all_eq_true]; intro k hk
    have := hidx k hk; have := hv.1
    rw [setCapacity_cap]; simp; omega)]
  refine ⟨_, rfl, ?_⟩
  unfold Vec.toList
  dsimp only
  have hdata : ∀ k < v.len, (setCapacity v idx.length g).data k = v.data k := by
    intro k hk
    unfold setCapacity; split
    · simp [hk]
    · rfl
  apply List.ext_getElem
  · simp
  · intro i h1 h2
    simp only [List.length_map, List.length_range] at h1
    rw [List.getElem_map, List.getElem_map, List.getElem_range,
      gatherLoop_inPlace _ _ _ _ _ (fun m hm => by have := strictMono_ge idx hinc m hm; omega),
      dif_pos ⟨by omega, by omega⟩]
    simp only [Nat.sub_zero]
    exact hdata _ (hidx _ (List.getElem_mem _))

/-- The order matters in place: gathering positions `[1, 0]` of `[5, 7]` gives `[7, 7]`, not `[7, 5]`. -/
theorem C42_in_place_needs_increasing :
    ∃ (v w : Vec) (idx : List Nat), v.WF ∧ (∀ k ∈ idx, k < v.len) ∧ gatherInPlace v idx (fun _ => 0) = .ok w ∧
      w.toList = [7, 7] ∧ idx.map v.data = [7, 5] :=
  ⟨⟨2, 2, fun k => [5, 7].getD k 0⟩, _, [1, 0], ⟨by decide, by decide⟩, by decide, rfl, by decide, by decide⟩

/-! ## Non-vacuity -/

example : ∃ v, runAll (init 1 (fun _ => 99)) (fun _ _ => 99) 0
    [.push 3, .push 4, .concatSelf, .concat [7, 8, 9], .push 5] = .ok v ∧ v.toList = [3, 4, 3, 4, 7, 8, 9, 5] := by
  obtain ⟨v, h1, _, h3⟩ := C02_history 1 (by decide) (fun _ => 99) (fun _ _ => 99)
    [.push 3, .push 4, .concatSelf, .concat [7, 8, 9], .push 5]
  exact ⟨v, h1, h3⟩

end H2Pack.IntVec
