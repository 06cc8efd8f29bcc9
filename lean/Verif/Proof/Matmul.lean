import Verif.Model.Matmul
import Verif.Props.Metadata
import Verif.Proof.Matvec3

/-! # H2 matmul: gemm on cells, forward transformation -/

set_option linter.unusedSectionVars false

namespace H2Pack.MV
open H2Pack.Part (Arr kids ClusterTree)
open Finset (range sum_congr mul_sum sum_mul sum_comm sum_add_distrib sum_range_succ mem_range)

section
variable {K : Type} [CommRing K]

/-- Position of row `r` of vector `l`. -/
def View.cell (V : View) (r l : Nat) : Nat := if V.tr then l * V.ld + r else r * V.ld + l

/-- The view is large enough for `nv` vectors with `n` rows. -/
def View.Good (V : View) (n nv : Nat) : Prop :=
  (V.tr = false → V.stride = V.ld ∧ nv ≤ V.ld) ∧ (V.tr = true → V.stride = 1 ∧ n ≤ V.ld)

theorem mmView_good (R : Rep K) (col : Bool) {mm nv : Nat} (h : nv ≤ mm) : (mmView R col mm).Good R.size nv := by
  unfold mmView
  cases col <;> simp [View.Good, h]

theorem cell_inj {V : View} {n nv : Nat} (h : V.Good n nv) {r r' l l' : Nat} (hr : r < n) (hr' : r' < n) (hl : l < nv) (hl' : l' < nv)
    (e : V.cell r l = V.cell r' l') : r = r' ∧ l = l' := by
  unfold View.cell at e
  cases ht : V.tr
  · have := h.1 ht
    rw [ht] at e
    simp only [Bool.false_eq_true, if_false] at e
    exact mul_add_inj (by omega) (by omega) e
  · have := h.2 ht
    rw [ht] at e
    simp only [if_true] at e
    exact (mul_add_inj (by omega) (by omega) e).symm

theorem opAt_view {V : View} {n nv : Nat} (h : V.Good n nv) (x : Nat → K) (s t l : Nat) :
    opAt V.tr V.ld (fun k => x (s * V.stride + k)) t l = x (V.cell (s + t) l) := by
  unfold opAt View.cell
  cases ht : V.tr
  · simp only [Bool.false_eq_true, if_false]
    rw [(h.1 ht).1]
    congr 1; ring
  · simp only [if_true]
    rw [(h.2 ht).1]
    congr 1; ring

theorem gemm_cell (m k nv : Nat) (a b : Nat → Nat → K) (acc : Bool) (C : Nat → K) {i l : Nat} (hl : l < nv) :
    gemm m nv k a b acc C 0 nv (i * nv + l) = if i < m then (if acc then C (i * nv + l) else 0) + ∑ t ∈ range k, a i t * b t l else C (i * nv + l) := by
  unfold gemm
  rw [Nat.sub_zero, (div_mod_row hl).1, (div_mod_row hl).2]
  simp [hl]

theorem opAt_not (t : Bool) (ld : Nat) (A : Nat → K) (i j : Nat) : opAt (!t) ld A i j = opAt t ld A j i := by
  unfold opAt; cases t <;> simp

theorem rowsAdd_cell {V : View} {n nv : Nat} (hV : V.Good n nv) {s m : Nat} (hs : s + m ≤ n) (k ldA : Nat) (trA : Bool) (A : Nat → K) (zN zT Z : Nat → Nat → K)
    (hN : V.tr = false → ∀ t < k, ∀ l < nv, zN t l = Z t l) (hT : V.tr = true → ∀ t < k, ∀ l < nv, zT l t = Z t l) (y : Nat → K)
    {r l : Nat} (hr : r < n) (hl : l < nv) :
    rowsAdd V nv s m k ldA trA A zN zT y (V.cell r l) = y (V.cell r l) +
      if s ≤ r ∧ r < s + m then ∑ t ∈ range k, opAt trA ldA A (r - s) t * Z t l else 0 := by
  unfold rowsAdd View.cell
  cases ht : V.tr
  · have hv := hV.1 ht
    simp only [Bool.false_eq_true, if_false, if_true]
    unfold gemm
    rw [hv.1]
    by_cases hsr : s ≤ r
    · have e : r * V.ld + l - s * V.ld = (r - s) * V.ld + l := by
        rw [Nat.sub_mul]
        have := Nat.mul_le_mul_right V.ld hsr
        omega
      have hle : s * V.ld ≤ r * V.ld + l := le_trans (Nat.mul_le_mul_right _ hsr) (by omega)
      rw [e, (div_mod_row (by omega : l < V.ld)).1, (div_mod_row (by omega : l < V.ld)).2]
      by_cases hm : r < s + m
      · rw [if_pos ⟨hle, by omega, hl⟩, if_pos rfl, if_pos (show s ≤ r ∧ r < s + m from ⟨hsr, hm⟩)]
        congr 1
        apply sum_congr rfl; intro t htt
        rw [hN ht t (mem_range.1 htt) l hl]
      · rw [if_neg (by omega), if_neg (by omega), add_zero]
    · have : ¬ s * V.ld ≤ r * V.ld + l := by
        have : (r + 1) * V.ld ≤ s * V.ld := Nat.mul_le_mul_right _ (by omega)
        rw [Nat.add_mul] at this
        omega
      rw [if_neg (by omega), if_neg (by omega), add_zero]
  · have hv := hV.2 ht
    simp only [Bool.true_eq_false, if_false, if_true]
    unfold gemm
    rw [hv.1, Nat.mul_one]
    by_cases hsr : s ≤ r
    · have e : l * V.ld + r - s = l * V.ld + (r - s) := by omega
      rw [e, (div_mod_row (by omega : r - s < V.ld)).1, (div_mod_row (by omega : r - s < V.ld)).2]
      by_cases hm : r < s + m
      · rw [if_pos ⟨by omega, hl, by omega⟩, if_pos rfl, if_pos (show s ≤ r ∧ r < s + m from ⟨hsr, hm⟩)]
        congr 1
        apply sum_congr rfl; intro t htt
        rw [hT ht t (mem_range.1 htt) l hl, opAt_not, mul_comm]
      · rw [if_neg (by omega), if_neg (by omega), add_zero]
    · rw [if_neg (show ¬ (s ≤ r ∧ r < s + m) by omega), add_zero, if_neg]
      rintro ⟨h1, _, h3⟩
      cases l with
      | zero => omega
      | succ l =>
        have e : (l + 1) * V.ld + r - s = l * V.ld + (V.ld + r - s) := by rw [Nat.add_mul]; omega
        rw [e, (div_mod_row (by omega : V.ld + r - s < V.ld)).2] at h3
        omega

/-! ## Upward sweeps -/

/-- A sweep over the levels `max_level`, ..., `min_adm_level`: a property that each step establishes for its node when it holds
for the children, and that steps at other nodes keep, holds in the end for all nodes. -/
theorem sweep_up {Y : Type} {R : Rep K} (h : WF R) (step : Y → Nat → Y) (Done : Y → Nat → Prop)
    (hs : ∀ y v, v < R.arr.nNode → R.minAdm ≤ R.arr.level v → (∀ c ∈ kids R.arr v, Done y c) → Done (step y v) v)
    (hk : ∀ y v u, u ≠ v → Done y u → Done (step y v) u) (ord : Nat → List Nat) (hord : ∀ l, (ord l).Perm (R.levelList l)) (y : Y) :
    ∀ v < R.arr.nNode, R.minAdm ≤ R.arr.level v →
      Done (((List.range' R.minAdm (R.arr.maxLevel + 1 - R.minAdm)).reverse.flatMap ord).foldl step y) v := by
  have lvl : ∀ (l : Nat), R.minAdm ≤ l → ∀ (L : List Nat) (y : Y), (∀ v ∈ L, v < R.arr.nNode ∧ R.arr.level v = l) →
      (∀ v < R.arr.nNode, l < R.arr.level v → Done y v) →
      (∀ v < R.arr.nNode, l < R.arr.level v → Done (L.foldl step y) v) ∧
      (∀ v ∈ L, Done (L.foldl step y) v) ∧ (∀ v, v ∉ L → Done y v → Done (L.foldl step y) v) := by
    intro l hl L
    induction L with
    | nil => intro y _ hd; exact ⟨hd, by simp, fun v _ h => h⟩
    | cons a L ih =>
      intro y hL hd
      obtain ⟨ha1, ha2⟩ := hL a List.mem_cons_self
      have s1 := hs y a ha1 (by omega) (fun c hc => by
        have hk := kid_level h ha1 (by omega) hc
        exact hd c hk.1 (by omega))
      have h2 := ih (step y a) (fun v hv => hL v (List.mem_cons_of_mem _ hv)) (fun v hv hlv => by
        by_cases e : v = a
        · subst e; omega
        · exact hk y a v e (hd v hv hlv))
      rw [List.foldl_cons]
      refine ⟨h2.1, ?_, ?_⟩
      · intro v hv
        by_cases hvL : v ∈ L
        · exact h2.2.1 v hvL
        · rcases List.mem_cons.1 hv with e | e
          · rw [e] at hvL ⊢; exact h2.2.2 a hvL s1
          · exact absurd e hvL
      · intro v hv hdv
        rw [List.mem_cons, not_or] at hv
        exact h2.2.2 v hv.2 (hk y a v hv.1 hdv)
  have key : ∀ m lo, lo + m = R.arr.maxLevel + 1 → R.minAdm ≤ lo → ∀ y : Y, ∀ v < R.arr.nNode, lo ≤ R.arr.level v →
      Done (((List.range' lo m).reverse.flatMap ord).foldl step y) v := by
    intro m
    induction m with
    | zero =>
      intro lo hm _ y v hv hl
      have := h.tree.levelLe v hv
      omega
    | succ m ih =>
      intro lo hm hlo y v hv hl
      rw [List.range'_succ, List.reverse_cons, List.flatMap_append, List.foldl_append]
      have hord' : ∀ v ∈ ord lo, v < R.arr.nNode ∧ R.arr.level v = lo := fun v hv => (mem_levelList h).1 ((hord lo).mem_iff.1 hv)
      have := lvl lo hlo (ord lo) _ hord' (fun v hv hlv => ih (lo + 1) (by omega) (by omega) y v hv (by omega))
      simp only [List.flatMap_cons, List.flatMap_nil, List.append_nil]
      rcases Nat.lt_or_eq_of_le hl with hl | hl
      · exact this.1 v hv hl
      · exact this.2.1 v ((hord lo).mem_iff.2 ((mem_levelList h).2 ⟨hv, hl.symm⟩))
  intro v hv hl
  have := h.tree.levelLe v hv
  exact key _ _ (by omega) (le_refl _) _ v hv hl

/-! ## Forward transformation -/

/-- Column `l` of the `y0` blocks. -/
def col0 (nv l : Nat) (y0 : Y0 K) : Y0 K := fun v => ((y0 v).1, fun k => (y0 v).2 (k * nv + l))

/-- An environment for the vector algorithm with the given order of the backward sweep. -/
def anyEnv (b : Nat → List Nat) : Env K :=
  ⟨1, 1, fun _ _ => 0, fun _ _ => 0, fun _ _ => 0, fun _ _ => 0, fun _ => 0, fun _ => 0, b, b, 0, fun _ => 0, [], 0, fun _ => 0, [], 0, fun _ => 0, [], []⟩

theorem mmFwdKids_col (Un : Mat K) (y0 : Y0 K) {nv l j : Nat} (hl : l < nv) (hn : 0 < Un.ncol) (hj : j < Un.ncol) : ∀ (cs : List Nat) (k s : Nat) (y : Nat → K) (y' : Nat → K),
    (∀ c ∈ cs, 0 < (y0 c).1) → cs ≠ [] ∨ k ≠ 0 → (k ≠ 0 → y (j * nv + l) = y' j) →
    mmFwdKids Un nv y0 cs k s y (j * nv + l) = fwdKids Un (col0 nv l y0) cs k s y' j := by
  intro cs
  induction cs with
  | nil => intro k s y y' _ hk hy; exact hy (by simpa using hk)
  | cons c cs ih =>
    intro k s y y' hpos _ hy
    rw [mmFwdKids, fwdKids]
    refine ih (k + 1) _ _ _ (fun d hd => hpos d (List.mem_cons_of_mem _ hd)) (Or.inr (by omega)) (fun _ => ?_)
    rw [gemm_cell _ _ _ _ _ _ _ hl, if_pos hj]
    rw [gemvT_eq (show 0 < (col0 nv l y0 c).1 from hpos c List.mem_cons_self) hn _ _ _ _ hj]
    rw [add_comm]
    congr 1
    by_cases hk : k = 0
    · simp [hk]
    · simp [hk, hy hk]

theorem mmFwd_spec {R : Rep K} (h : WF R) {W : Nat → Nat → Nat → K} (hW : Nested R W) (E : MMEnv K) (hE : ∀ l, (E.fwdOrd l).Perm (R.levelList l))
    {V : View} {nv : Nat} (hV : V.Good R.size nv) (x : Nat → K) :
    ∀ v < R.arr.nNode, R.minAdm ≤ R.arr.level v → ∀ l < nv, FwdDone R W (fun r => x (V.cell r l)) (col0 nv l (mmFwd R E V nv x)) v := by
  apply sweep_up h (mmFwdNode R E V nv x) (fun y0 v => ∀ l < nv, FwdDone R W (fun r => x (V.cell r l)) (col0 nv l y0) v)
  · intro y0 v hv hlv hc l hl
    have hd := (fwdNode_done h hW (anyEnv E.bwdOrd) (fun r => x (V.cell r l)) (col0 nv l y0) hv hlv (fun c hcm => hc c hcm l hl)).1
    have e1 : (col0 nv l (mmFwdNode R E V nv x y0 v) v).1 = (fwdNode R (anyEnv E.bwdOrd) (fun r => x (V.cell r l)) (col0 nv l y0) v v).1 := by
      unfold col0 mmFwdNode fwdNode
      dsimp only
      split <;> simp
    have e2 : ∀ k < (R.U v).ncol, (col0 nv l (mmFwdNode R E V nv x y0 v) v).2 k =
        (fwdNode R (anyEnv E.bwdOrd) (fun r => x (V.cell r l)) (col0 nv l y0) v v).2 k := by
      intro k hk
      have hr := h.rank v hv hlv
      unfold mmFwdNode fwdNode
      dsimp only
      by_cases h0 : R.arr.nChild v = 0
      · rw [if_pos h0, if_pos h0]
        unfold col0
        simp only [Function.update_self]
        rw [gemm_cell _ _ _ _ _ _ _ hl, if_pos hk, gemvT_eq (nrow_pos h hv hlv) hr _ _ _ _ hk, h.uLeaf v hv hlv h0, add_comm]
        simp only [Bool.false_eq_true, if_false]
        congr 1
        apply sum_congr rfl; intro t _
        rw [opAt_view hV]
      · rw [if_neg h0, if_neg h0]
        unfold col0
        simp only [Function.update_self]
        apply mmFwdKids_col _ _ hl hr hk
        · intro c hcm
          rw [show (y0 c).1 = (col0 nv l y0 c).1 from rfl, (hc c hcm l hl).1]
          have := kid_level h hv hlv hcm
          exact h.rank c this.1 this.2.1
        · left; rw [Ne, Part.kids_nil_iff]; exact h0
        · intro hh; exact absurd rfl hh
    unfold FwdDone at hd ⊢
    refine ⟨by rw [e1]; exact hd.1, fun c hc' => ?_⟩
    rw [e2 c hc', hd.2 c hc']
  · intro y0 v u hu hd l hl
    have : col0 nv l (mmFwdNode R E V nv x y0 v) u = col0 nv l y0 u := by
      unfold col0 mmFwdNode
      split <;> simp only [Function.update_of_ne hu]
    unfold FwdDone
    rw [this]
    exact hd l hl
  · exact hE

end
end H2Pack.MV
