import Verif.Proof.Matvec

/-! # Forward and backward transformation -/

set_option linter.unusedSectionVars false

namespace H2Pack.MV
open H2Pack.Part (Arr kids ClusterTree)
open Finset (range sum_congr mul_sum sum_mul sum_comm sum_add_distrib sum_range_succ mem_range)

section
variable {K : Type} [CommRing K]

/-- Sum over a list of nodes with running offset. -/
def walk (len : Nat → Nat) (G : Nat → Nat → K) : List Nat → Nat → K
  | [], _ => 0
  | c :: cs, s => G c s + walk len G cs (s + len c)

theorem walk_eq (len : Nat → Nat) (G : Nat → Nat → K) : ∀ (cs : List Nat) (s : Nat),
    walk len G cs s = ∑ k ∈ range cs.length, G (cs.getD k 0) (s + ∑ j ∈ range k, len (cs.getD j 0)) := by
  intro cs
  induction cs with
  | nil => intro s; simp [walk]
  | cons c cs ih =>
    intro s
    rw [walk, ih, List.length_cons, Finset.sum_range_succ', add_comm]
    congr 1
    · apply sum_congr rfl
      intro k _
      rw [Finset.sum_range_succ']
      simp only [List.getD_cons_succ, List.getD_cons_zero]
      congr 1
      omega

theorem length_kids (A : Arr K) (v : Nat) : (kids A v).length = A.nChild v := by simp [kids]

theorem walk_kids (R : Rep K) (v : Nat) (G : Nat → Nat → K) :
    walk (fun c => (R.U c).ncol) G (kids R.arr v) 0 = ∑ k ∈ range (R.arr.nChild v), G (kid R v k) (off R v k) := by
  rw [walk_eq, length_kids]
  apply sum_congr rfl
  intro k _
  rw [Nat.zero_add]; rfl

theorem kid_mem {R : Rep K} {v k : Nat} (h : k < R.arr.nChild v) : kid R v k ∈ kids R.arr v := by
  unfold kid
  have h' : k < (kids R.arr v).length := by rw [length_kids]; exact h
  rw [show (kids R.arr v).getD k 0 = (kids R.arr v)[k] by simp [List.getD, h']]
  exact List.getElem_mem h'

theorem rowS_lt_rowE {R : Rep K} (h : WF R) {v : Nat} (hv : v < R.arr.nNode) : R.rowS v < R.rowE v := by
  unfold Rep.rowS Rep.rowE
  have := h.tree.clusterLe v hv
  exact Nat.mul_lt_mul_of_pos_left (by omega) h.kdim

theorem rowE_le_size {R : Rep K} (h : WF R) {v : Nat} (hv : v < R.arr.nNode) : R.rowE v ≤ R.size := by
  unfold Rep.size Rep.rowE
  have := h.tree.clusterLt v hv
  rw [Nat.mul_comm]
  exact Nat.mul_le_mul_right _ (by omega)

theorem kid_level {R : Rep K} (h : WF R) {v c : Nat} (hv : v < R.arr.nNode) (hl : R.minAdm ≤ R.arr.level v) (hc : c ∈ kids R.arr v) :
    c < R.arr.nNode ∧ R.minAdm ≤ R.arr.level c ∧ R.arr.level c = R.arr.level v + 1 := by
  have h1 := h.tree.kid_lt hv hc
  have h2 := h.tree.childLevel v hv c hc
  exact ⟨h1, by omega, h2⟩

theorem off_pos {R : Rep K} (h : WF R) {v : Nat} (hv : v < R.arr.nNode) (hl : R.minAdm ≤ R.arr.level v) (hne : R.arr.nChild v ≠ 0) :
    0 < off R v (R.arr.nChild v) := by
  unfold off
  obtain ⟨m, hm⟩ := Nat.exists_eq_succ_of_ne_zero hne
  rw [hm, sum_range_succ]
  have hk := kid_level h hv hl (kid_mem (R := R) (v := v) (k := m) (by omega))
  have := h.rank _ hk.1 hk.2.1
  omega

theorem nrow_pos {R : Rep K} (h : WF R) {v : Nat} (hv : v < R.arr.nNode) (hl : R.minAdm ≤ R.arr.level v) : 0 < (R.U v).nrow := by
  by_cases h0 : R.arr.nChild v = 0
  · rw [h.uLeaf v hv hl h0]; have := rowS_lt_rowE h hv; omega
  · rw [h.uInner v hv hl h0]; exact off_pos h hv hl h0

/-- `levelList l` are the nodes of level `l`. -/
theorem mem_levelList {R : Rep K} (h : WF R) {l v : Nat} : v ∈ R.levelList l ↔ v < R.arr.nNode ∧ R.arr.level v = l := by
  unfold Rep.levelList
  rw [h.tree.levelList l, List.mem_filter, List.mem_range]
  simp

theorem levelList_nodup {R : Rep K} (h : WF R) (l : Nat) : (R.levelList l).Nodup := by
  unfold Rep.levelList
  rw [h.tree.levelList l]
  exact List.nodup_range.filter _

/-! ## Forward -/

theorem gemvT_eq {m n : Nat} (hm : 0 < m) (hn : 0 < n) (a : Nat → Nat → K) (x : Nat → K) (acc : Bool) (y : Nat → K) {j : Nat} (hj : j < n) :
    gemvT m n a x acc y j = (∑ i ∈ range m, a i j * x i) + if acc then y j else 0 := by
  unfold gemvT
  rw [if_neg (by omega)]
  simp only [if_pos hj]

theorem gemvN_eq {m n : Nat} (hm : 0 < m) (hn : 0 < n) (a : Nat → Nat → K) (x : Nat → K) (acc : Bool) (y : Nat → K) {j : Nat} (hj : j < m) :
    gemvN m n a x acc y j = (∑ i ∈ range n, a j i * x i) + if acc then y j else 0 := by
  unfold gemvN
  rw [if_neg (by omega)]
  simp only [if_pos hj]

theorem fwdKids_eq (Un : Mat K) (y0 : Y0 K) (hn : 0 < Un.ncol) {j : Nat} (hj : j < Un.ncol) : ∀ (cs : List Nat) (k s : Nat) (y : Nat → K),
    (∀ c ∈ cs, 0 < (y0 c).1) → cs ≠ [] ∨ k ≠ 0 →
    fwdKids Un y0 cs k s y j = (if k ≠ 0 then y j else 0) +
      walk (fun c => (y0 c).1) (fun c s => ∑ d ∈ range (y0 c).1, Un.e (s + d) j * (y0 c).2 d) cs s := by
  intro cs
  induction cs with
  | nil =>
    intro k s y _ hk
    have hk : k ≠ 0 := by simpa using hk
    simp [fwdKids, walk, hk]
  | cons c cs ih =>
    intro k s y hpos _
    rw [fwdKids]
    rw [ih (k + 1) _ _ (fun d hd => hpos d (List.mem_cons_of_mem _ hd)) (Or.inr (by omega)), if_pos (by omega),
      gemvT_eq (hpos c List.mem_cons_self) hn _ _ _ _ hj, walk]
    simp only [decide_eq_true_eq]
    ring

/-- `y0[v]` holds `W_vᵀ x`. -/
def FwdDone (R : Rep K) (W : Nat → Nat → Nat → K) (x : Nat → K) (y0 : Y0 K) (v : Nat) : Prop :=
  (y0 v).1 = (R.U v).ncol ∧ ∀ c < (R.U v).ncol, (y0 v).2 c = ∑ q ∈ range R.size, W v q c * x q

theorem sum_shift (n s e : Nat) (hse : s ≤ e) (he : e ≤ n) (f : Nat → K) :
    ∑ q ∈ range n, (if s ≤ q ∧ q < e then f (q - s) else 0) = ∑ i ∈ range (e - s), f i := by
  rw [← sum_split s n (by omega), ← sum_split (e - s) (n - s) (by omega)]
  have h1 : ∑ q ∈ range s, (if s ≤ q ∧ q < e then f (q - s) else 0) = 0 := by
    apply Finset.sum_eq_zero; intro q hq; rw [mem_range] at hq; rw [if_neg (by omega)]
  have h2 : ∑ t ∈ range (n - s - (e - s)), (if s ≤ s + (e - s + t) ∧ s + (e - s + t) < e then f (s + (e - s + t) - s) else 0) = 0 := by
    apply Finset.sum_eq_zero; intro q hq; rw [if_neg (by omega)]
  rw [h1, h2, zero_add, add_zero]
  apply sum_congr rfl
  intro t ht
  rw [mem_range] at ht
  rw [if_pos (by omega), show s + t - s = t by omega]

theorem fwdNode_done {R : Rep K} (h : WF R) {W : Nat → Nat → Nat → K} (hW : Nested R W) (E : Env K) (x : Nat → K) (y0 : Y0 K) {v : Nat}
    (hv : v < R.arr.nNode) (hl : R.minAdm ≤ R.arr.level v) (hk : ∀ c ∈ kids R.arr v, FwdDone R W x y0 c) :
    FwdDone R W x (fwdNode R E x y0 v) v ∧ ∀ u, u ≠ v → (fwdNode R E x y0 v) u = y0 u := by
  have hr := h.rank v hv hl
  unfold fwdNode
  simp only
  by_cases h0 : R.arr.nChild v = 0
  · rw [if_pos h0]
    refine ⟨⟨by rw [Function.update_self], ?_⟩, fun u hu => Function.update_of_ne hu _ _⟩
    intro c hc
    rw [Function.update_self]
    dsimp only
    rw [gemvT_eq (nrow_pos h hv hl) hr _ _ _ _ hc]
    simp only [Bool.false_eq_true, if_false, add_zero]
    have e : ∀ q, W v q c * x q = if R.rowS v ≤ q ∧ q < R.rowE v then (fun i => (R.U v).e i c * x (R.rowS v + i)) (q - R.rowS v) else 0 := by
      intro q
      rw [hW.leaf v hv hl h0 q c hc]
      split
      · next hq => simp only; rw [show R.rowS v + (q - R.rowS v) = q by omega]
      · simp
    simp only [e]
    rw [sum_shift _ _ _ (le_of_lt (rowS_lt_rowE h hv)) (rowE_le_size h hv) (fun i => (R.U v).e i c * x (R.rowS v + i)), ← h.uLeaf v hv hl h0]
  · rw [if_neg h0]
    refine ⟨⟨by rw [Function.update_self], ?_⟩, fun u hu => Function.update_of_ne hu _ _⟩
    intro c hc
    rw [Function.update_self]
    simp only
    rw [fwdKids_eq _ _ hr hc]
    · simp only [ne_eq, not_true_eq_false, if_false, zero_add]
      have ew : walk (fun c => (y0 c).1) (fun d s => ∑ i ∈ range (y0 d).1, (R.U v).e (s + i) c * (y0 d).2 i) (kids R.arr v) 0 =
          walk (fun d => (R.U d).ncol) (fun d s => ∑ i ∈ range (R.U d).ncol, (R.U v).e (s + i) c * ∑ q ∈ range R.size, W d q i * x q) (kids R.arr v) 0 := by
        generalize (0 : Nat) = s
        revert hk
        generalize kids R.arr v = cs
        induction cs generalizing s with
        | nil => intro _; rfl
        | cons d cs ih =>
          intro hk
          rw [walk, walk, ih _ (fun a ha => hk a (List.mem_cons_of_mem _ ha)), (hk d List.mem_cons_self).1]
          congr 1
          apply sum_congr rfl
          intro i hi
          rw [(hk d List.mem_cons_self).2 i (mem_range.1 hi)]
      rw [ew, walk_kids]
      have e : ∀ q, W v q c * x q = ∑ k ∈ range (R.arr.nChild v), ∑ d ∈ range (R.U (kid R v k)).ncol,
          (R.U v).e (off R v k + d) c * (W (kid R v k) q d * x q) := by
        intro q
        rw [hW.inner v hv hl h0 q c hc, sum_mul]
        apply sum_congr rfl; intro k _
        rw [sum_mul]
        apply sum_congr rfl; intro d _
        ring
      simp only [e, mul_sum]
      rw [sum_comm]
      apply sum_congr rfl; intro k _
      rw [sum_comm]
    · intro d hd
      rw [(hk d hd).1]
      have := kid_level h hv hl hd
      exact h.rank d this.1 this.2.1
    · left
      rw [Ne, Part.kids_nil_iff]; exact h0

theorem fwd_level {R : Rep K} (h : WF R) {W : Nat → Nat → Nat → K} (hW : Nested R W) (E : Env K) (x : Nat → K) (l : Nat) (hl : R.minAdm ≤ l) :
    ∀ (L : List Nat) (y0 : Y0 K), (∀ v ∈ L, v < R.arr.nNode ∧ R.arr.level v = l) →
    (∀ v < R.arr.nNode, l < R.arr.level v → FwdDone R W x y0 v) →
    (∀ v < R.arr.nNode, l < R.arr.level v → FwdDone R W x (L.foldl (fwdNode R E x) y0) v) ∧
    (∀ v ∈ L, FwdDone R W x (L.foldl (fwdNode R E x) y0) v) ∧
    (∀ v, v ∉ L → FwdDone R W x y0 v → FwdDone R W x (L.foldl (fwdNode R E x) y0) v) := by
  intro L
  induction L with
  | nil => intro y0 _ hd; exact ⟨hd, by simp, fun v _ h => h⟩
  | cons a L ih =>
    intro y0 hL hd
    obtain ⟨ha1, ha2⟩ := hL a List.mem_cons_self
    obtain ⟨s1, s2⟩ := fwdNode_done h hW E x y0 ha1 (by omega) (fun c hc => by
      have hk := kid_level h ha1 (by omega) hc
      exact hd c hk.1 (by omega))
    have keep : ∀ v, v ≠ a → FwdDone R W x y0 v → FwdDone R W x (fwdNode R E x y0 a) v := by
      intro v hv hdv
      unfold FwdDone
      rw [s2 v hv]; exact hdv
    have h2 := ih (fwdNode R E x y0 a) (fun v hv => hL v (List.mem_cons_of_mem _ hv)) (fun v hv hlv => by
      by_cases e : v = a
      · subst e; omega
      · exact keep v e (hd v hv hlv))
    rw [List.foldl_cons]
    refine ⟨h2.1, ?_, ?_⟩
    · intro v hv
      by_cases hvL : v ∈ L
      · exact h2.2.1 v hvL
      · rcases List.mem_cons.1 hv with e | e
        · rw [e] at hvL ⊢; exact h2.2.2 a hvL s1
        · exact absurd e hvL
    · intro v hv hdv
      rw [List.mem_cons, not_or] at hv
      exact h2.2.2 v hv.2 (keep v hv.1 hdv)

/-- After the forward transformation `y0[v] = W_vᵀ x` for every node with a basis. -/
theorem fwd_spec {R : Rep K} (h : WF R) {W : Nat → Nat → Nat → K} (hW : Nested R W) (E : Env K) (hE : E.Valid R) (x : Nat → K) :
    ∀ v < R.arr.nNode, R.minAdm ≤ R.arr.level v → FwdDone R W x (fwdTransform R E x) v := by
  have key : ∀ m lo, lo + m = R.arr.maxLevel + 1 → R.minAdm ≤ lo → ∀ y0 : Y0 K, ∀ v < R.arr.nNode, lo ≤ R.arr.level v →
      FwdDone R W x (((List.range' lo m).reverse.flatMap E.fwdOrd).foldl (fwdNode R E x) y0) v := by
    intro m
    induction m with
    | zero =>
      intro lo hm _ y0 v hv hl
      have := h.tree.levelLe v hv
      omega
    | succ m ih =>
      intro lo hm hlo y0 v hv hl
      rw [List.range'_succ, List.reverse_cons, List.flatMap_append, List.foldl_append]
      have hord : ∀ v ∈ E.fwdOrd lo, v < R.arr.nNode ∧ R.arr.level v = lo := fun v hv => (mem_levelList h).1 ((hE.fwd lo).mem_iff.1 hv)
      have := fwd_level h hW E x lo hlo (E.fwdOrd lo) _ hord (fun v hv hlv => ih (lo + 1) (by omega) (by omega) y0 v hv (by omega))
      simp only [List.flatMap_cons, List.flatMap_nil, List.append_nil]
      rcases Nat.lt_or_eq_of_le hl with hl | hl
      · exact this.1 v hv hl
      · exact this.2.1 v ((hE.fwd lo).mem_iff.2 ((mem_levelList h).2 ⟨hv, hl.symm⟩))
  intro v hv hl
  unfold fwdTransform
  have := h.tree.levelLe v hv
  exact key _ _ (by omega) (le_refl _) _ v hv hl

/-! ## Backward -/

/-- Contribution of `y1[v]` to row `r` of the output. -/
def term (R : Rep K) (W : Nat → Nat → Nat → K) (r : Nat) (s : BwdSt K) (v : Nat) : K :=
  if s.ld v ≠ 0 then ∑ c ∈ range (R.U v).ncol, W v r c * s.mem (.y1 v c) else 0

/-- Output row `r` plus everything that still has to be pushed down from the nodes of `S`. -/
def pot (R : Rep K) (W : Nat → Nat → Nat → K) (r : Nat) (S : Finset Nat) (s : BwdSt K) : K :=
  s.mem (.y r) + ∑ v ∈ S, term R W r s v

theorem foldl_addAt_range {ι : Type} [DecidableEq ι] (n : Nat) (a : Nat → ι) (f : Nat → K) (mem : ι → K) (l : ι) :
    (List.range n).foldl (fun mem k => addAt mem (a k) (f k)) mem l = mem l + ∑ k ∈ range n, if l = a k then f k else 0 :=
  foldl_range_adds n (fun mem k => addAt mem (a k) (f k)) (fun k l => if l = a k then f k else 0) (fun _ _ _ _ => addAt_apply _ _ _ _) mem l

theorem push_one (R : Rep K) (E : Env K) (W : Nat → Nat → Nat → K) (tmp : Nat → K) (r : Nat) (S : Finset Nat) :
    ∀ (cs : List Nat) (idx : Nat) (s : BwdSt K), (∀ c ∈ cs, c ∈ S) →
    pot R W r S (pushKids R E tmp cs idx s) = pot R W r S s +
      walk (fun c => (R.U c).ncol) (fun c i => ∑ d ∈ range (R.U c).ncol, W c r d * tmp (i + d)) cs idx := by
  intro cs
  induction cs with
  | nil => intro idx s _; simp [pushKids, walk]
  | cons c cs ih =>
    intro idx s hS
    rw [pushKids]
    rw [ih _ _ (fun a ha => hS a (List.mem_cons_of_mem _ ha)), walk, ← add_assoc]
    congr 1
    have hc := hS c List.mem_cons_self
    by_cases h0 : s.ld c = 0
    · rw [if_pos h0]
      unfold pot
      rw [add_assoc]
      congr 1
      rw [← Finset.add_sum_erase S _ hc, ← Finset.add_sum_erase S (term R W r s) hc]
      have e0 : term R W r s c = 0 := by unfold term; rw [if_neg (by simpa using h0)]
      rw [e0, zero_add, add_comm]
      congr 1
      · apply sum_congr rfl
        intro v hv
        have hne : v ≠ c := Finset.ne_of_mem_erase hv
        unfold term
        simp only [Function.update_of_ne hne, if_neg hne]
      · unfold term
        simp only [Function.update_self]
        rw [if_pos (by omega)]
        apply sum_congr rfl
        intro k hk
        rw [if_pos trivial, if_pos (mem_range.1 hk)]
    · rw [if_neg h0]
      unfold pot
      rw [add_assoc]
      congr 1
      · simp only; rw [foldl_addAt_range]; simp
      rw [← Finset.add_sum_erase S _ hc, ← Finset.add_sum_erase S (term R W r s) hc]
      have e1 : term R W r ⟨s.ld, (List.range (R.U c).ncol).foldl (fun mem k => addAt mem (.y1 c k) (tmp (idx + k))) s.mem⟩ c =
          term R W r s c + ∑ d ∈ range (R.U c).ncol, W c r d * tmp (idx + d) := by
        unfold term
        rw [if_pos h0, if_pos h0, ← sum_add_distrib]
        apply sum_congr rfl
        intro k hk
        simp only
        rw [foldl_addAt_range, mul_add]
        congr 2
        rw [Finset.sum_eq_single k]
        · simp
        · intro b _ hb; rw [if_neg]; simp only [Loc.y1.injEq, true_and]; omega
        · intro h; exact absurd hk h
      have e2 : ∑ v ∈ S.erase c, term R W r ⟨s.ld, (List.range (R.U c).ncol).foldl (fun mem k => addAt mem (.y1 c k) (tmp (idx + k))) s.mem⟩ v =
          ∑ v ∈ S.erase c, term R W r s v := by
        apply sum_congr rfl
        intro v hv
        have hne : v ≠ c := Finset.ne_of_mem_erase hv
        unfold term
        split
        · apply sum_congr rfl
          intro k _
          dsimp only
          rw [foldl_addAt_range]
          simp [hne]
        · rfl
      rw [e1, e2]
      abel

theorem bwdNode_pot {R : Rep K} (h : WF R) {W : Nat → Nat → Nat → K} (hW : Nested R W) (E : Env K) (s : BwdSt K) {v : Nat}
    (hv : v < R.arr.nNode) (hl : R.minAdm ≤ R.arr.level v) (r : Nat) (S : Finset Nat) (hS : v ∈ S) (hk : ∀ c ∈ kids R.arr v, c ∈ S.erase v) :
    pot R W r (S.erase v) (bwdNode R E s v) = pot R W r S s := by
  unfold bwdNode
  by_cases h0 : s.ld v = 0
  · rw [if_pos h0]
    unfold pot
    rw [← Finset.add_sum_erase S (term R W r s) hS]
    have e0 : term R W r s v = 0 := by unfold term; rw [if_neg (by simpa using h0)]
    rw [e0, zero_add]
  rw [if_neg h0]
  simp only
  have hp : pot R W r S s = pot R W r (S.erase v) s + ∑ c ∈ range (R.U v).ncol, W v r c * s.mem (.y1 v c) := by
    unfold pot
    rw [← Finset.add_sum_erase S (term R W r s) hS]
    have e0 : term R W r s v = ∑ c ∈ range (R.U v).ncol, W v r c * s.mem (.y1 v c) := by unfold term; rw [if_pos h0]
    rw [e0]; abel
  rw [hp]
  have hn := nrow_pos h hv hl
  have hr := h.rank v hv hl
  by_cases hleaf : R.arr.nChild v = 0
  · rw [if_pos hleaf]
    have e1 : ∀ u, term R W r ⟨s.ld, (List.range (R.rowE v - R.rowS v)).foldl (fun mem k => addAt mem (.y (R.rowS v + k))
        (gemvN (R.U v).nrow (R.U v).ncol (R.U v).e (fun k => s.mem (.y1 v k)) false (E.junkT v) k)) s.mem⟩ u = term R W r s u := by
      intro u
      unfold term
      split
      · apply sum_congr rfl
        intro k _
        dsimp only
        rw [foldl_addAt_range]; simp
      · rfl
    unfold pot
    simp only [e1]
    rw [foldl_addAt_range]
    have e2 : (∑ k ∈ range (R.rowE v - R.rowS v), if Loc.y r = Loc.y (R.rowS v + k) then
        gemvN (R.U v).nrow (R.U v).ncol (R.U v).e (fun k => s.mem (.y1 v k)) false (E.junkT v) k else 0) =
        ∑ c ∈ range (R.U v).ncol, W v r c * s.mem (.y1 v c) := by
      by_cases hrow : R.rowS v ≤ r ∧ r < R.rowE v
      · rw [Finset.sum_eq_single (r - R.rowS v)]
        · rw [if_pos (by congr 1; omega), gemvN_eq hn hr _ _ _ _ (by rw [h.uLeaf v hv hl hleaf]; omega)]
          simp only [Bool.false_eq_true, if_false, add_zero]
          apply sum_congr rfl
          intro c hc
          rw [hW.leaf v hv hl hleaf r c (mem_range.1 hc), if_pos hrow]
        · intro b _ hb; rw [if_neg]; simp only [Loc.y.injEq]; omega
        · intro hh; exact absurd (mem_range.2 (by omega)) hh
      · rw [Finset.sum_eq_zero, Finset.sum_eq_zero]
        · intro c hc
          rw [hW.leaf v hv hl hleaf r c (mem_range.1 hc), if_neg hrow, zero_mul]
        · intro k hkk
          rw [mem_range] at hkk
          rw [if_neg]; simp only [Loc.y.injEq]; omega
    rw [e2]; abel
  · rw [if_neg hleaf, push_one R E W _ r _ _ _ _ hk, walk_kids]
    congr 1
    have e1 : ∀ c ∈ range (R.U v).ncol, W v r c * s.mem (.y1 v c) = ∑ k ∈ range (R.arr.nChild v), ∑ d ∈ range (R.U (kid R v k)).ncol,
        W (kid R v k) r d * ((R.U v).e (off R v k + d) c * s.mem (.y1 v c)) := by
      intro c hc
      rw [hW.inner v hv hl hleaf r c (mem_range.1 hc), sum_mul]
      apply sum_congr rfl; intro k _
      rw [sum_mul]
      apply sum_congr rfl; intro d _
      ring
    rw [sum_congr rfl e1, sum_comm]
    apply sum_congr rfl
    intro k hk'
    rw [sum_comm]
    apply sum_congr rfl
    intro d hd
    rw [mem_range] at hk' hd
    rw [gemvN_eq hn hr]
    · simp only [Bool.false_eq_true, if_false, add_zero]
      rw [mul_sum]
    · rw [h.uInner v hv hl hleaf]
      have : ∀ m, k < m → off R v k + (R.U (kid R v k)).ncol ≤ off R v m := by
        intro m
        induction m with
        | zero => intro h; omega
        | succ m ih =>
          intro hm
          have e : off R v (m + 1) = off R v m + (R.U (kid R v m)).ncol := by unfold off; rw [sum_range_succ]
          rcases Nat.lt_or_ge k m with hlt | hge
          · have := ih hlt; omega
          · have : k = m := by omega
            subst this; omega
      have := this _ hk'
      omega

theorem bwd_level {R : Rep K} (h : WF R) {W : Nat → Nat → Nat → K} (hW : Nested R W) (E : Env K) (r l : Nat) (hl : R.minAdm ≤ l) :
    ∀ (L : List Nat) (S : Finset Nat) (s : BwdSt K), L.Nodup → (∀ v ∈ L, v < R.arr.nNode ∧ R.arr.level v = l ∧ v ∈ S) →
    (∀ v < R.arr.nNode, R.arr.level v = l + 1 → v ∈ S) →
    pot R W r (S \ L.toFinset) (L.foldl (bwdNode R E) s) = pot R W r S s := by
  intro L
  induction L with
  | nil => intro S s _ _ _; simp
  | cons a L ih =>
    intro S s hnd hL hS
    obtain ⟨ha1, ha2, ha3⟩ := hL a List.mem_cons_self
    rw [List.nodup_cons] at hnd
    rw [List.foldl_cons]
    have hk : ∀ c ∈ kids R.arr a, c ∈ S.erase a := by
      intro c hc
      have hkl := kid_level h ha1 (by omega) hc
      refine Finset.mem_erase.2 ⟨?_, hS c hkl.1 (by omega)⟩
      intro e; subst e; omega
    have := ih (S.erase a) (bwdNode R E s a) hnd.2 (fun v hv => by
        obtain ⟨p1, p2, p3⟩ := hL v (List.mem_cons_of_mem _ hv)
        refine ⟨p1, p2, Finset.mem_erase.2 ⟨?_, p3⟩⟩
        rintro rfl; exact hnd.1 hv)
      (fun v hv hlv => Finset.mem_erase.2 ⟨by rintro rfl; omega, hS v hv hlv⟩)
    rw [bwdNode_pot h hW E s ha1 (by omega) r S ha3 hk] at this
    rw [← this]
    congr 1
    ext v
    simp only [List.toFinset_cons, Finset.mem_sdiff, Finset.mem_insert, Finset.mem_erase, List.mem_toFinset, not_or]
    tauto

/-- Nodes on level `l` or deeper. -/
def deep (R : Rep K) (l : Nat) : Finset Nat := (range R.arr.nNode).filter (fun v => l ≤ R.arr.level v)

/-- The backward transformation adds `Σ_v W_v y1[v]` to the output. -/
theorem bwd_spec {R : Rep K} (h : WF R) {W : Nat → Nat → Nat → K} (hW : Nested R W) (E : Env K) (hE : ∀ l, (E.bwdOrd l).Perm (R.levelList l)) (s : BwdSt K) (r : Nat) :
    (bwdTransform R E s).mem (.y r) = s.mem (.y r) + ∑ v ∈ deep R R.minAdm, term R W r s v := by
  have key : ∀ m lo, lo + m = R.arr.maxLevel + 1 → R.minAdm ≤ lo → ∀ s : BwdSt K,
      (((List.range' lo m).flatMap E.bwdOrd).foldl (bwdNode R E) s).mem (.y r) = pot R W r (deep R lo) s := by
    intro m
    induction m with
    | zero =>
      intro lo hm _ s
      have : deep R lo = ∅ := by
        unfold deep
        apply Finset.filter_eq_empty_iff.2
        intro v hv
        have := h.tree.levelLe v (mem_range.1 hv)
        omega
      rw [this]; simp [pot]
    | succ m ih =>
      intro lo hm hlo s
      rw [List.range'_succ, List.flatMap_cons, List.foldl_append, ih (lo + 1) (by omega) (by omega)]
      have hm1 : ∀ v, v ∈ E.bwdOrd lo ↔ v < R.arr.nNode ∧ R.arr.level v = lo := fun v => by
        rw [(hE lo).mem_iff, mem_levelList h]
      have hd : ∀ l v, v ∈ deep R l ↔ v < R.arr.nNode ∧ l ≤ R.arr.level v := by
        intro l v; unfold deep; rw [Finset.mem_filter, mem_range]
      rw [← bwd_level h hW E r lo hlo (E.bwdOrd lo) (deep R lo) s ((hE lo).nodup_iff.2 (levelList_nodup h lo))
        (fun v hv => by
          have := (hm1 v).1 hv
          exact ⟨this.1, this.2, (hd _ _).2 ⟨this.1, by omega⟩⟩)
        (fun v hv hlv => (hd _ _).2 ⟨hv, by omega⟩)]
      congr 1
      ext v
      rw [Finset.mem_sdiff, List.mem_toFinset, hm1, hd, hd]
      constructor
      · rintro ⟨a, b⟩; exact ⟨⟨a, by omega⟩, by omega⟩
      · rintro ⟨⟨a, b⟩, c⟩; refine ⟨a, ?_⟩; by_contra hh; exact c ⟨a, by omega⟩
  unfold bwdTransform
  by_cases hle : R.minAdm ≤ R.arr.maxLevel + 1
  · rw [key _ _ (by omega) (le_refl _)]; rfl
  · have : R.arr.maxLevel + 1 - R.minAdm = 0 := by omega
    rw [this]
    have : deep R R.minAdm = ∅ := by
      unfold deep
      apply Finset.filter_eq_empty_iff.2
      intro v hv
      have := h.tree.levelLe v (mem_range.1 hv)
      omega
    rw [this]; simp

/-- The backward transformation does not touch the thread buffers. -/
theorem bwd_ty {R : Rep K} (E : Env K) (s : BwdSt K) (t k : Nat) : (bwdTransform R E s).mem (.ty t k) = s.mem (.ty t k) := by
  have push : ∀ (tmp : Nat → K) (cs : List Nat) (idx : Nat) (s : BwdSt K), (pushKids R E tmp cs idx s).mem (.ty t k) = s.mem (.ty t k) := by
    intro tmp cs
    induction cs with
    | nil => intro idx s; rfl
    | cons c cs ih =>
      intro idx s
      rw [pushKids]
      rw [ih]
      split
      · rfl
      · simp only; rw [foldl_addAt_range]; simp
  have node : ∀ (s : BwdSt K) (v : Nat), (bwdNode R E s v).mem (.ty t k) = s.mem (.ty t k) := by
    intro s v
    unfold bwdNode
    split
    · rfl
    · simp only
      split
      · simp only; rw [foldl_addAt_range]; simp
      · exact push _ _ _ _
  unfold bwdTransform
  generalize (List.range' R.minAdm (R.arr.maxLevel + 1 - R.minAdm)).flatMap E.bwdOrd = L
  induction L generalizing s with
  | nil => rfl
  | cons a L ih => rw [List.foldl_cons, ih, node]

end
end H2Pack.MV
