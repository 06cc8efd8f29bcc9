import Verif.Props.BuildUJ
import Verif.Proof.Skeleton

set_option linter.unusedSectionVars false

/-!
# From the slots to the representation
-/

namespace H2Pack.UJ
open H2Pack.Part (Arr kids ClusterTree)
open H2Pack.MV (HasSkel kid off)
open Finset

theorem flat_at (f : Nat → List Nat) : ∀ (L : List Nat) (j : Nat), j < L.length → ∀ k < (f (L.getD j 0)).length,
    (L.flatMap f)[(∑ i ∈ range j, (f (L.getD i 0)).length) + k]? = (f (L.getD j 0))[k]? := by
  intro L
  induction L with
  | nil => intro j hj; simp at hj
  | cons c L ih =>
    intro j hj k hk
    rw [List.flatMap_cons]
    cases j with
    | zero =>
      rw [range_zero, sum_empty, Nat.zero_add]
      have hk' : k < (f c).length := hk
      rw [List.getElem?_append_left hk']
      rfl
    | succ j =>
      have hg : ∀ i, (c :: L).getD (i + 1) 0 = L.getD i 0 := fun i => rfl
      rw [hg] at hk ⊢
      rw [sum_range_succ', show (c :: L).getD 0 0 = c from rfl]
      simp only [hg]
      rw [List.getElem?_append_right (by omega), show (∑ i ∈ range j, (f (L.getD i 0)).length) + (f c).length + k - (f c).length = (∑ i ∈ range j, (f (L.getD i 0)).length) + k by omega]
      exact ih j (by simpa using hj) k hk

theorem flat_split (f : Nat → List Nat) : ∀ (L : List Nat) (i : Nat), i < (L.flatMap f).length →
    ∃ j < L.length, ∃ k < (f (L.getD j 0)).length, i = (∑ i ∈ range j, (f (L.getD i 0)).length) + k := by
  intro L
  induction L with
  | nil => intro i hi; simp at hi
  | cons c L ih =>
    intro i hi
    rw [List.flatMap_cons, List.length_append] at hi
    by_cases h : i < (f c).length
    · exact ⟨0, by simp, i, h, by simp⟩
    · obtain ⟨j, hj, k, hk, he⟩ := ih (i - (f c).length) (by omega)
      refine ⟨j + 1, by simpa using hj, k, hk, ?_⟩
      rw [sum_range_succ', show (c :: L).getD 0 0 = c from rfl]
      have hg : ∀ i, (c :: L).getD (i + 1) 0 = L.getD i 0 := fun i => rfl
      simp only [hg]
      omega

theorem flat_length (f : Nat → List Nat) : ∀ (L : List Nat), (L.flatMap f).length = ∑ i ∈ range L.length, (f (L.getD i 0)).length := by
  intro L
  induction L with
  | nil => rfl
  | cons c L ih =>
    have hg : ∀ i, (c :: L).getD (i + 1) 0 = L.getD i 0 := fun i => rfl
    rw [List.flatMap_cons, List.length_append, ih, List.length_cons, sum_range_succ', show (c :: L).getD 0 0 = c from rfl]
    simp only [hg]
    omega

section
variable {K : Type} [Field K]

theorem pts_length (s : Slot K) : s.pts.length = s.jl := by simp [Slot.pts]

theorem pts_at {s : Slot K} {k : Nat} (hk : k < s.jl) : s.pts[k]? = some (s.jd k) := by simp [Slot.pts, hk]

theorem kids_length (A : Arr K) (v : Nat) : (kids A v).length = A.nChild v := by simp [kids]

theorem height_iff {S : Input K} (T : ClusterTree S.arr S.nPoint) {v : Nat} (hv : v < S.arr.nNode) : S.arr.height v = 0 ↔ S.arr.nChild v = 0 := by
  constructor
  · intro h
    by_contra hc
    have := T.nodeHeight v hv hc
    omega
  · exact T.leafHeight v hv

variable {S : Input K} {sl : Nat → Slot K} {pv : H2Pack.Part.Pairs} {coordIdx mark : Nat → Nat} {simd : Nat} {bimv : Option (H2Pack.MV.Bimv K)}
  {B D : Nat → H2Pack.MV.Mat K} {junkM junkW : Nat → Nat → K}

/-- Sum of the ranks of the first `j` children. -/
theorem off_eq (T : ClusterTree S.arr S.nPoint) (hs : ∀ v < S.arr.nNode, pv.minAdm ≤ S.arr.level v → Skeleton S sl v) {v : Nat} (hv : v < S.arr.nNode) (hl : pv.minAdm ≤ S.arr.level v)
    {j : Nat} (hj : j ≤ S.arr.nChild v) :
    off (assemble S sl pv coordIdx mark simd bimv B D junkM junkW).R v j = (∑ i ∈ range j, ((fun c => (sl c).pts) ((kids S.arr v).getD i 0)).length) * S.kdim := by
  unfold off
  rw [sum_mul]
  apply sum_congr rfl
  intro i hi
  have hi' : i < (kids S.arr v).length := by rw [kids_length]; have := mem_range.1 hi; omega
  have hm : (kids S.arr v).getD i 0 ∈ kids S.arr v := by
    rw [show (kids S.arr v).getD i 0 = (kids S.arr v)[i] by simp [List.getD, hi']]
    exact List.getElem_mem hi'
  obtain ⟨_, a2, a3⟩ := kid_facts T hv hl hm
  show (sl ((kids S.arr v).getD i 0)).U.ncol = _
  rw [(hs _ a2 a3).cols]
  simp only [pts_length]

/-- The candidates, the skeleton points and the bases fit together. -/
theorem hasSkel (T : ClusterTree S.arr S.nPoint) (h0 : S.ops.zero = 0) (h1 : S.ops.one = 1)
    (hs : ∀ v < S.arr.nNode, pv.minAdm ≤ S.arr.level v → Skeleton S sl v) :
    HasSkel (assemble S sl pv coordIdx mark simd bimv B D junkM junkW) (fun v i => (cands S sl v).getD i 0) (fun v => (cands S sl v).length) (fun v => (sl v).jd) where
  coord v hv hl := (hs v hv hl).coord
  cluster v hv hl k hk := (hs v hv hl).cluster _ (List.mem_map.2 ⟨k, List.mem_range.2 hk, rfl⟩)
  rank v hv hl := (hs v hv hl).cols
  chosen v hv hl k hk := by
    have hm : (sl v).jd k ∈ cands S sl v := (hs v hv hl).chosen.mem (List.mem_map.2 ⟨k, List.mem_range.2 hk, rfl⟩)
    obtain ⟨i, hi, he⟩ := List.getElem_of_mem hm
    exact ⟨i, hi, by simp [List.getD, hi, he]⟩
  unit v hv hl i hi k hk he a ha t ht := by
    have hi' : i < (cands S sl v).length := hi
    have := (hs v hv hl).unit i hi' k hk (by
      have he' : (cands S sl v).getD i 0 = (sl v).jd k := he
      simp [List.getD, hi'] at he'
      rw [List.getElem?_eq_getElem hi', he']) a ha t ht
    rw [h0, h1] at this
    exact this
  candLeaf v hv hl hc := by
    have hh := (height_iff T hv).2 hc
    have e : cands S sl v = List.range' (S.arr.ptS v) (S.arr.ptE v - S.arr.ptS v + 1) := by unfold cands; rw [if_pos hh]
    refine ⟨?_, ?_⟩
    · show (cands S sl v).length = _
      rw [e, List.length_range']; rfl
    · intro i hi
      show (cands S sl v).getD i 0 = S.arr.ptS v + i
      have hi' : i < S.arr.ptE v - S.arr.ptS v + 1 := hi
      rw [e]
      simp [List.getD, hi']
  candInner v hv hl hc j hj k hk := by
    have hh : S.arr.height v ≠ 0 := fun h => hc ((height_iff T hv).1 h)
    have e : cands S sl v = (kids S.arr v).flatMap fun c => (sl c).pts := by unfold cands; rw [if_neg hh]
    have hj' : j < (kids S.arr v).length := by rw [kids_length]; exact hj
    have hk1 : k < (sl ((kids S.arr v).getD j 0)).jl := hk
    have hk' : k < ((fun c => (sl c).pts) ((kids S.arr v).getD j 0)).length := by simpa only [pts_length] using hk1
    have g := flat_at (fun c => (sl c).pts) (kids S.arr v) j hj' k hk'
    have hg : ((fun c => (sl c).pts) ((kids S.arr v).getD j 0))[k]? = some ((sl ((kids S.arr v).getD j 0)).jd k) := pts_at hk1
    rw [hg] at g
    refine ⟨(∑ i ∈ range j, ((fun c => (sl c).pts) ((kids S.arr v).getD i 0)).length) + k, ?_, ?_, ?_⟩
    · show _ < (cands S sl v).length
      rw [e]
      exact (List.getElem?_eq_some_iff.1 g).1
    · rw [off_eq T hs hv hl (le_of_lt hj)]
      show _ + k * S.kdim = _ * S.kdim
      rw [Nat.add_mul]
    · show (cands S sl v).getD _ 0 = _
      rw [e, List.getD, g]
      rfl
  candSurj v hv hl hc i hi := by
    have hh : S.arr.height v ≠ 0 := fun h => hc ((height_iff T hv).1 h)
    have e : cands S sl v = (kids S.arr v).flatMap fun c => (sl c).pts := by unfold cands; rw [if_neg hh]
    have hi' : i < (cands S sl v).length := hi
    rw [e] at hi'
    obtain ⟨j, hj, k, hk, he⟩ := flat_split _ _ i hi'
    have g := flat_at (fun c => (sl c).pts) (kids S.arr v) j hj k hk
    have hk1 : k < (sl ((kids S.arr v).getD j 0)).jl := by simpa only [pts_length] using hk
    have hg : ((fun c => (sl c).pts) ((kids S.arr v).getD j 0))[k]? = some ((sl ((kids S.arr v).getD j 0)).jd k) := pts_at hk1
    rw [hg] at g
    have hj1 : j < S.arr.nChild v := by rw [← kids_length]; exact hj
    refine ⟨j, hj1, k, hk1, ?_, ?_⟩
    · rw [off_eq T hs hv hl (le_of_lt hj1), he]
      show _ + k * S.kdim = _ * S.kdim
      rw [Nat.add_mul]
    · show (cands S sl v).getD i 0 = _
      rw [e, he, List.getD, g]
      rfl

/-- The sizes the products rely on. -/
theorem sizes (T : ClusterTree S.arr S.nPoint) (hs : ∀ v < S.arr.nNode, pv.minAdm ≤ S.arr.level v → Skeleton S sl v) {v : Nat} (hv : v < S.arr.nNode) (hl : pv.minAdm ≤ S.arr.level v) :
    (S.arr.nChild v = 0 → (sl v).U.nrow = (S.arr.ptE v - S.arr.ptS v + 1) * S.kdim) ∧
    (S.arr.nChild v ≠ 0 → (sl v).U.nrow = off (assemble S sl pv coordIdx mark simd bimv B D junkM junkW).R v (S.arr.nChild v)) := by
  constructor
  · intro h
    rw [(hs v hv hl).rows]
    unfold cands
    rw [if_pos ((height_iff T hv).2 h), List.length_range']
  · intro h
    rw [(hs v hv hl).rows, off_eq T hs hv hl (le_refl _)]
    unfold cands
    rw [if_neg (fun hh => h ((height_iff T hv).1 hh)), flat_length, kids_length]

theorem finish_at {m : Nat} {level : Nat → Nat} {st : Nat → Res (Slot K)} {junk : Nat → Slot K} {v : Nat} (hl : m ≤ level v) {s : Slot K} (h : st v = .ok s) :
    finishUJ m level st junk v = s := by
  unfold finishUJ
  rw [if_neg (by omega), h]

theorem finish_low {m : Nat} {level : Nat → Nat} {st : Nat → Res (Slot K)} {junk : Nat → Slot K} {v : Nat} (hl : level v < m) :
    (finishUJ m level st junk v).jl = 0 ∧ (finishUJ m level st junk v).U.ncol = 0 := by
  unfold finishUJ
  rw [if_pos hl]
  exact ⟨rfl, rfl⟩

end
end H2Pack.UJ
