import Verif.Proof.Matvec3
import Verif.Props.AdmPairs
import Verif.Props.Workload

/-!
# C20 - C22, C26: matvec with an H2 / HSS matrix (stored generators)

`entry R W` (Spec/H2Matrix.lean) is the matrix in the order of the tree; row `i*kdim+a` belongs to component `a` of
the point `coordIdx i`.
-/

set_option linter.unusedSectionVars false

namespace H2Pack.MV
open H2Pack.Part (Arr kids ClusterTree)
open Finset (range sum_congr)

section
variable {K : Type} [CommRing K]

/-! ## Permutations (C26) -/

/-- Index arrays for a permutation: position `i*kd+j` of the tree order is position `c i*kd+j` of the user's order. -/
structure PmtPair (n kd : Nat) (c f b : Nat → Nat) : Prop where
  fwd : ∀ i < n, ∀ j < kd, f (i * kd + j) = c i * kd + j
  bwd : ∀ i < n, ∀ j < kd, b (c i * kd + j) = i * kd + j

theorem perm_lt {n : Nat} {c : Nat → Nat} (h : ((List.range n).map c).Perm (List.range n)) {i : Nat} (hi : i < n) : c i < n :=
  List.mem_range.1 (h.mem_iff.1 (List.mem_map.2 ⟨i, List.mem_range.2 hi, rfl⟩))

theorem perm_inj {n : Nat} {c : Nat → Nat} (h : ((List.range n).map c).Perm (List.range n)) {i j : Nat} (hi : i < n) (hj : j < n)
    (e : c i = c j) : i = j := by
  have hn := h.nodup_iff.2 List.nodup_range
  exact List.inj_on_of_nodup_map hn (List.mem_range.2 hi) (List.mem_range.2 hj) e

theorem perm_surj {n : Nat} {c : Nat → Nat} (h : ((List.range n).map c).Perm (List.range n)) {p : Nat} (hp : p < n) : ∃ i < n, c i = p := by
  obtain ⟨i, hi, e⟩ := List.mem_map.1 (h.mem_iff.2 (List.mem_range.2 hp))
  exact ⟨i, List.mem_range.1 hi, e⟩

theorem pmtIdx_pair (R : Rep K) (hc : ((List.range R.nPoint).map R.coordIdx).Perm (List.range R.nPoint)) (g : (Nat → Nat) × (Nat → Nat)) :
    PmtPair R.nPoint R.kdim R.coordIdx (pmtIdx R g).1 (pmtIdx R g).2 := by
  -- invariant after `m` points
  have inner : ∀ (i : Nat) (s : (Nat → Nat) × (Nat → Nat)) (m : Nat), m ≤ R.kdim →
      let t := (List.range m).foldl (fun (s : (Nat → Nat) × (Nat → Nat)) j =>
        (Function.update s.1 (i * R.kdim + j) (R.coordIdx i * R.kdim + j),
         Function.update s.2 (R.coordIdx i * R.kdim + j) (i * R.kdim + j))) s
      (∀ j < m, t.1 (i * R.kdim + j) = R.coordIdx i * R.kdim + j ∧ t.2 (R.coordIdx i * R.kdim + j) = i * R.kdim + j) ∧
      (∀ k, (∀ j < m, k ≠ i * R.kdim + j) → t.1 k = s.1 k) ∧ (∀ k, (∀ j < m, k ≠ R.coordIdx i * R.kdim + j) → t.2 k = s.2 k) := by
    intro i s m
    induction m with
    | zero => intro _; exact ⟨by intro j hj; omega, fun _ _ => rfl, fun _ _ => rfl⟩
    | succ m ih =>
      intro hm
      obtain ⟨i1, i2, i3⟩ := ih (by omega)
      dsimp only at i1 i2 i3 ⊢
      rw [List.range_succ, List.foldl_append, List.foldl_cons, List.foldl_nil]
      dsimp only
      refine ⟨fun j hj => ?_, fun k hk => ?_, fun k hk => ?_⟩
      · by_cases e : j = m
        · subst e; rw [Function.update_self, Function.update_self]; exact ⟨rfl, rfl⟩
        · rw [Function.update_of_ne (by omega), Function.update_of_ne (by omega)]
          exact i1 j (by omega)
      · rw [Function.update_of_ne (hk m (by omega))]
        exact i2 k (fun j hj => hk j (by omega))
      · rw [Function.update_of_ne (hk m (by omega))]
        exact i3 k (fun j hj => hk j (by omega))
  have outer : ∀ m, m ≤ R.nPoint →
      let t := (List.range m).foldl (fun s i =>
        (List.range R.kdim).foldl (fun (s : (Nat → Nat) × (Nat → Nat)) j =>
          (Function.update s.1 (i * R.kdim + j) (R.coordIdx i * R.kdim + j),
           Function.update s.2 (R.coordIdx i * R.kdim + j) (i * R.kdim + j))) s) g
      ∀ i < m, ∀ j < R.kdim, t.1 (i * R.kdim + j) = R.coordIdx i * R.kdim + j ∧ t.2 (R.coordIdx i * R.kdim + j) = i * R.kdim + j := by
    intro m
    induction m with
    | zero => intro _ _ i hi; omega
    | succ m ih =>
      intro hm
      have ih := ih (by omega)
      dsimp only at ih ⊢
      intro i hi j hj
      rw [List.range_succ, List.foldl_append, List.foldl_cons, List.foldl_nil]
      obtain ⟨q1, q2, q3⟩ := inner m ((List.range m).foldl (fun s i =>
        (List.range R.kdim).foldl (fun (s : (Nat → Nat) × (Nat → Nat)) j =>
          (Function.update s.1 (i * R.kdim + j) (R.coordIdx i * R.kdim + j),
           Function.update s.2 (R.coordIdx i * R.kdim + j) (i * R.kdim + j))) s) g) R.kdim (le_refl _)
      by_cases e : i = m
      · subst e; exact q1 j hj
      · rw [q2, q3]
        · exact ih i (by omega) j hj
        · intro j' hj' he
          have h1 := (mul_add_inj hj hj' he).1
          exact e (perm_inj hc (by omega) (by omega) h1)
        · intro j' hj' he
          exact e (mul_add_inj hj hj' he).1
  exact ⟨fun i hi j hj => (outer _ (le_refl _) i hi j hj).1, fun i hi j hj => (outer _ (le_refl _) i hi j hj).2⟩

theorem gather_eq (n : Nat) (idx : Nat → Nat) (src dst : Nat → K) (k : Nat) :
    gather n idx src dst k = if k < n then src (idx k) else dst k := by
  unfold gather
  induction n with
  | zero => simp
  | succ n ih =>
    rw [List.range_succ, List.foldl_append, List.foldl_cons, List.foldl_nil]
    by_cases e : k = n
    · subst e; rw [Function.update_self, if_pos (by omega)]
    · rw [Function.update_of_ne e, ih]
      by_cases h : k < n
      · rw [if_pos h, if_pos (by omega)]
      · rw [if_neg h, if_neg (by omega)]

theorem row_split {n kd r : Nat} (hr : r < n * kd) : ∃ i < n, ∃ j < kd, r = i * kd + j := by
  have hk : 0 < kd := by
    rcases Nat.eq_zero_or_pos kd with h | h
    · subst h; omega
    · exact h
  refine ⟨r / kd, Nat.div_lt_of_lt_mul (by rwa [Nat.mul_comm] at hr), r % kd, Nat.mod_lt _ hk, ?_⟩
  rw [Nat.mul_comm]; exact (Nat.div_add_mod r kd).symm

theorem row_lt {n kd i j : Nat} (hi : i < n) (hj : j < kd) : i * kd + j < n * kd := by
  calc i * kd + j < i * kd + kd := by omega
    _ = (i + 1) * kd := by ring
    _ ≤ n * kd := Nat.mul_le_mul_right _ hi

/-- C26. -/
theorem C26_permutations (R : Rep K) (hc : ((List.range R.nPoint).map R.coordIdx).Perm (List.range R.nPoint))
    (g : (Nat → Nat) × (Nat → Nat)) (x d d' : Nat → K) :
    (∀ i < R.nPoint, ∀ j < R.kdim, permuteFwd R g x d (i * R.kdim + j) = x (R.coordIdx i * R.kdim + j)) ∧
    (∀ i < R.nPoint, ∀ j < R.kdim, permuteBwd R g x d (R.coordIdx i * R.kdim + j) = x (i * R.kdim + j)) ∧
    (∀ r < R.nPoint * R.kdim, permuteBwd R g (permuteFwd R g x d) d' r = x r) ∧
    (∀ r < R.nPoint * R.kdim, permuteFwd R g (permuteBwd R g x d) d' r = x r) ∧
    (∀ r, R.nPoint * R.kdim ≤ r → permuteFwd R g x d r = d r ∧ permuteBwd R g x d r = d r) := by
  have P := pmtIdx_pair R hc g
  have f : ∀ x d : Nat → K, ∀ i < R.nPoint, ∀ j < R.kdim, permuteFwd R g x d (i * R.kdim + j) = x (R.coordIdx i * R.kdim + j) := by
    intro x d i hi j hj
    unfold permuteFwd Rep.size
    rw [gather_eq, if_pos (row_lt hi hj), P.fwd i hi j hj]
  have b : ∀ x d : Nat → K, ∀ i < R.nPoint, ∀ j < R.kdim, permuteBwd R g x d (R.coordIdx i * R.kdim + j) = x (i * R.kdim + j) := by
    intro x d i hi j hj
    unfold permuteBwd Rep.size
    rw [gather_eq, if_pos (row_lt (perm_lt hc hi) hj), P.bwd i hi j hj]
  refine ⟨f x d, b x d, ?_, ?_, ?_⟩
  · intro r hr
    obtain ⟨p, hp, j, hj, rfl⟩ := row_split hr
    obtain ⟨i, hi, rfl⟩ := perm_surj hc hp
    rw [b _ _ i hi j hj, f _ _ i hi j hj]
  · intro r hr
    obtain ⟨i, hi, j, hj, rfl⟩ := row_split hr
    rw [f _ _ i hi j hj, b _ _ i hi j hj]
  · intro r hr
    unfold permuteFwd permuteBwd Rep.size
    rw [gather_eq, gather_eq, if_neg (by omega), if_neg (by omega)]
    exact ⟨rfl, rfl⟩

/-! ## The matrix is well defined -/

/-- The nested basis, from the leaves up. -/
def basis (R : Rep K) (v : Nat) : Nat → Nat → K := fun r c =>
  if R.arr.nChild v = 0 then
    if R.rowS v ≤ r ∧ r < R.rowE v then (R.U v).e (r - R.rowS v) c else 0
  else ∑ k ∈ range (R.arr.nChild v), if _h : kid R v k < v then
      ∑ d ∈ range (R.U (kid R v k)).ncol, basis R (kid R v k) r d * (R.U v).e (off R v k + d) c else 0
termination_by v

theorem basis_nested {R : Rep K} (h : WF R) : Nested R (basis R) := by
  constructor
  · intro v _ _ h0 r c _
    rw [basis, if_pos h0]
  · intro v hv _ h0 r c _
    rw [basis, if_neg h0]
    apply sum_congr rfl
    intro k hk
    rw [Finset.mem_range] at hk
    have hlen : k < (kids R.arr v).length := by unfold kids; simpa using hk
    have : kid R v k < v := by
      unfold kid
      rw [show (kids R.arr v).getD k 0 = (kids R.arr v)[k] by simp [List.getD, hlen]]
      exact h.tree.childLt v hv _ (List.getElem_mem hlen)
    rw [dif_pos this]

/-- Every representation defines exactly one matrix. -/
theorem entry_unique {R : Rep K} (h : WF R) {W W' : Nat → Nat → Nat → K} (hW : Nested R W) (hW' : Nested R W')
    (r q : Nat) : entry R W r q = entry R W' r q := by
  have key : ∀ v, v < R.arr.nNode → R.minAdm ≤ R.arr.level v → ∀ r, ∀ c < (R.U v).ncol, W v r c = W' v r c := by
    intro v
    induction v using Nat.strong_induction_on with
    | _ v ih =>
      intro hv hl r c hc
      by_cases h0 : R.arr.nChild v = 0
      · rw [hW.leaf v hv hl h0 r c hc, hW'.leaf v hv hl h0 r c hc]
      · rw [hW.inner v hv hl h0 r c hc, hW'.inner v hv hl h0 r c hc]
        apply sum_congr rfl
        intro k hk
        apply sum_congr rfl
        intro d hd
        rw [Finset.mem_range] at hk hd
        have hlen : k < (kids R.arr v).length := by unfold kids; simpa using hk
        have hm : kid R v k ∈ kids R.arr v := by
          unfold kid
          rw [show (kids R.arr v).getD k 0 = (kids R.arr v)[k] by simp [List.getD, hlen]]
          exact List.getElem_mem hlen
        have h1 := h.tree.childLt v hv _ hm
        have h2 := h.tree.childLevel v hv _ hm
        rw [ih _ h1 (by omega) (by omega) r d hd]
  have hadm : ∀ i < R.adm.length, ∀ r q, admEntry R W i r q = admEntry R W' i r q := by
    intro i hi r q
    unfold admEntry
    have hg : R.adm.getD i (0, 0) = R.adm[i] := by simp [List.getD, hi]
    rw [hg]
    apply sum_congr rfl; intro c hc
    apply sum_congr rfl; intro d hd
    rw [Finset.mem_range] at hc hd
    rw [h.bRow i hi] at hc
    rw [h.bCol i hi] at hd
    have hn := h.admNode _ (List.getElem_mem hi)
    have hlv := h.admLevel _ (List.getElem_mem hi)
    congr 1
    · congr 1
      unfold side
      split
      · next hh => rw [if_pos hh] at hc; exact key _ hn.1 (by omega) _ _ hc
      · rfl
    · unfold side
      split
      · next hh => rw [if_pos hh] at hd; exact key _ hn.2 (by omega) _ _ hd
      · rfl
  unfold entry
  congr 2
  apply sum_congr rfl
  intro i hi
  rw [Finset.mem_range] at hi
  rw [hadm i hi, hadm i hi]

/-! ## C20 -/

theorem sum_rows (n kd : Nat) (f : Nat → K) : ∑ r ∈ range (n * kd), f r = ∑ i ∈ range n, ∑ j ∈ range kd, f (i * kd + j) := by
  induction n with
  | zero => simp
  | succ n ih =>
    rw [Finset.sum_range_succ, ← ih, show (n + 1) * kd = n * kd + kd by ring, Finset.sum_range_add]

/-- C20: the output is the matrix times the input; row and column `i*kdim+a` of the matrix belong to component `a` of
the point `coordIdx i`; nothing else is written. -/
theorem C20_matvec {R : Rep K} (h : WF R) {W : Nat → Nat → Nat → K} (hW : Nested R W) (E : Env K) (hE : E.Valid R)
    (g : (Nat → Nat) × (Nat → Nat)) (dx dy x : Nat → K) :
    (∀ i < R.nPoint, ∀ a < R.kdim, matvec R E g dx dy x (R.coordIdx i * R.kdim + a) =
      ∑ j ∈ range R.nPoint, ∑ b ∈ range R.kdim, entry R W (i * R.kdim + a) (j * R.kdim + b) * x (R.coordIdx j * R.kdim + b)) ∧
    ∀ k, R.nPoint * R.kdim ≤ k → matvec R E g dx dy x k = dy k := by
  have C := C26_permutations R h.perm g
  have hu : matvec R E g dx dy x = permuteBwd R g (matvecPmt R E (permuteFwd R g x dx)) dy := rfl
  rw [hu]
  refine ⟨fun i hi a ha => ?_, fun k hk => ((C _ dy dy).2.2.2.2 k hk).2⟩
  rw [(C _ dy dy).2.1 i hi a ha, matvecPmt_spec h hW E hE _ _ (row_lt hi ha)]
  unfold Rep.size
  rw [sum_rows]
  apply sum_congr rfl; intro j hj
  apply sum_congr rfl; intro b hb
  rw [Finset.mem_range] at hj hb
  rw [(C x dx dx).1 j hj b hb]

/-! ## C21 -/

/-- C21, linearity. -/
theorem C21_linear {R : Rep K} (h : WF R) (E : Env K) (hE : E.Valid R)
    (g : (Nat → Nat) × (Nat → Nat)) (dx dy x x' : Nat → K) (s s' : K) (k : Nat) (hk : k < R.nPoint * R.kdim) :
    matvec R E g dx dy (fun q => s * x q + s' * x' q) k = s * matvec R E g dx dy x k + s' * matvec R E g dx dy x' k := by
  obtain ⟨p, hp, a, ha, rfl⟩ := row_split hk
  obtain ⟨i, hi, rfl⟩ := perm_surj h.perm hp
  have C := fun x => (C20_matvec h (basis_nested h) E hE g dx dy x).1 i hi a ha
  rw [C, C, C]
  rw [Finset.mul_sum, Finset.mul_sum, ← Finset.sum_add_distrib]
  apply sum_congr rfl; intro j _
  rw [Finset.mul_sum, Finset.mul_sum, ← Finset.sum_add_distrib]
  apply sum_congr rfl; intro b _
  ring

/-- The diagonal blocks are symmetric. -/
def SymDiag (R : Rep K) : Prop := ∀ i < R.arr.nLeaf, ∀ a < (R.D i).nrow, ∀ b < (R.D i).nrow, (R.D i).e a b = (R.D i).e b a

theorem entry_symm {R : Rep K} (h : WF R) (hs : SymDiag R) (W : Nat → Nat → Nat → K) (r q : Nat) : entry R W r q = entry R W q r := by
  unfold entry
  congr 1
  · congr 1
    · apply sum_congr rfl; intro i _; rw [add_comm]
    · apply sum_congr rfl; intro i hi
      rw [Finset.mem_range] at hi
      have hd := h.d0 i hi
      unfold blockEntry
      by_cases c : (R.rowS (R.leaf i) ≤ r ∧ r < R.rowE (R.leaf i)) ∧ R.rowS (R.leaf i) ≤ q ∧ q < R.rowE (R.leaf i)
      · rw [if_pos c, if_pos ⟨c.2, c.1⟩]
        exact hs i hi _ (by omega) _ (by omega)
      · rw [if_neg c, if_neg (fun c' => c ⟨c'.2, c'.1⟩)]
  · apply sum_congr rfl; intro i _; rw [add_comm]

theorem sum_perm_rows {n kd : Nat} {c : Nat → Nat} (hc : ((List.range n).map c).Perm (List.range n)) (f : Nat → K) :
    ∑ r ∈ range (n * kd), f r = ∑ i ∈ range n, ∑ j ∈ range kd, f (c i * kd + j) := by
  rw [sum_rows]
  rw [← list_sum_range, ← list_sum_range]
  have := (hc.map (fun i => ∑ j ∈ range kd, f (i * kd + j))).sum_eq
  rw [← this, List.map_map]; rfl

/-- C21, symmetry. -/
theorem C21_symmetric {R : Rep K} (h : WF R) (hs : SymDiag R) (E : Env K) (hE : E.Valid R)
    (g : (Nat → Nat) × (Nat → Nat)) (dx dy y z : Nat → K) :
    ∑ r ∈ range (R.nPoint * R.kdim), z r * matvec R E g dx dy y r = ∑ r ∈ range (R.nPoint * R.kdim), y r * matvec R E g dx dy z r := by
  have hW := basis_nested h
  have exp : ∀ y z : Nat → K, ∑ r ∈ range (R.nPoint * R.kdim), z r * matvec R E g dx dy y r =
      ∑ p ∈ range (R.nPoint * R.kdim), ∑ q ∈ range (R.nPoint * R.kdim),
        permuteFwd R g z dx p * (entry R (basis R) p q * permuteFwd R g y dx q) := by
    intro y z
    rw [sum_perm_rows h.perm, sum_rows]
    apply sum_congr rfl; intro i hi
    apply sum_congr rfl; intro a ha
    rw [Finset.mem_range] at hi ha
    rw [(C20_matvec h hW E hE g dx dy y).1 i hi a ha, sum_rows, Finset.mul_sum, (C26_permutations R h.perm g z dx dx).1 i hi a ha]
    apply sum_congr rfl; intro j hj
    rw [Finset.mul_sum]
    apply sum_congr rfl; intro b hb
    rw [Finset.mem_range] at hj hb
    rw [(C26_permutations R h.perm g y dx dx).1 j hj b hb]
  rw [exp, exp, Finset.sum_comm]
  apply sum_congr rfl; intro p _
  apply sum_congr rfl; intro q _
  rw [entry_symm h hs]; ring

/-! ## C22 -/

/-- C22: work buffers, index arrays, number of threads and schedule have no influence on the result. -/
theorem C22_history_independent {R : Rep K} (h : WF R) (E E' : Env K) (hE : E.Valid R) (hE' : E'.Valid R)
    (g g' : (Nat → Nat) × (Nat → Nat)) (dx dy dx' dy' x x' : Nat → K) (hx : ∀ k < R.nPoint * R.kdim, x k = x' k) (k : Nat)
    (hk : k < R.nPoint * R.kdim) : matvec R E g dx dy x k = matvec R E' g' dx' dy' x' k := by
  obtain ⟨p, hp, a, ha, rfl⟩ := row_split hk
  obtain ⟨i, hi, rfl⟩ := perm_surj h.perm hp
  rw [(C20_matvec h (basis_nested h) E hE g dx dy x).1 i hi a ha, (C20_matvec h (basis_nested h) E' hE' g' dx' dy' x').1 i hi a ha]
  apply sum_congr rfl; intro j hj
  apply sum_congr rfl; intro b hb
  rw [Finset.mem_range] at hj hb
  rw [hx _ (row_lt (perm_lt h.perm hj) hb)]

end

/-! ## Block lists made by `H2P_partition_workload` (C03) are valid -/

/-- The block list computed from the sizes of the (non-empty) blocks cuts `0..n-1`. -/
theorem cuts_of_workload (n : Nat) (w : Nat → Nat) (total nBlock cap0 : Nat) (hnb : 1 ≤ nBlock)
    (htot : ∑ j ∈ range n, w j ≤ total) (hw : ∀ i < n, 0 < w i) :
    ∃ len d, H2Pack.Utils.partitionWorkload n w total nBlock cap0 = .ok (len, d) ∧ 1 ≤ len ∧ len - 1 ≤ nBlock ∧ Cuts n (len - 1) d := by
  obtain ⟨len, d, e, h1, h2, h3, h4, h5, h6, _⟩ := H2Pack.Utils.C03_partition_workload n w total nBlock cap0 hnb htot
  refine ⟨len, d, e, h1, by omega, h3, ?_, fun b hb => le_of_lt (h4 b (by omega))⟩
  rcases Nat.eq_zero_or_pos n with hn | hn
  · have := h5 (len - 1) (by omega); omega
  · obtain ⟨b, ⟨b1, b2, b3⟩, _⟩ := h6 (n - 1) (by omega) (hw _ (by omega))
    have := h5 (b + 1) b1
    by_cases hb : b + 1 = len - 1
    · rw [← hb]; omega
    · have h7 := h4 (b + 1) (by omega)
      have h8 := h5 (b + 1 + 1) (by omega)
      omega

example : ∃ len d, H2Pack.Utils.partitionWorkload 5 (fun i => i + 1) 15 3 0 = .ok (len, d) ∧ 1 ≤ len ∧ len - 1 ≤ 3 ∧ Cuts 5 (len - 1) d :=
  cuts_of_workload 5 (fun i => i + 1) 15 3 0 (by decide) (by decide) (by intro i _; omega)

/-! ## A concrete case: every tree carries a representation with non-trivial blocks -/

/-- Rank-one bases of ones on a given tree with given pairs, all generator entries `i+j+1`. -/
def demoRep (A : Arr ℚ) (n : Nat) (adm inadm : List (Nat × Nat)) (minAdm : Nat) : Rep ℚ where
  arr := A
  nPoint := n
  kdim := 2
  coordIdx := fun i => n - 1 - i
  U v := ⟨if A.nChild v = 0 then 2 * (A.ptE v + 1) - 2 * A.ptS v else A.nChild v, 1, fun _ _ => 1⟩
  adm := adm
  inadm := inadm
  B i := ⟨if A.level (adm.getD i (0, 0)).2 ≤ A.level (adm.getD i (0, 0)).1 then 1 else
            2 * (A.ptE (adm.getD i (0, 0)).1 + 1) - 2 * A.ptS (adm.getD i (0, 0)).1,
          if A.level (adm.getD i (0, 0)).1 ≤ A.level (adm.getD i (0, 0)).2 then 1 else
            2 * (A.ptE (adm.getD i (0, 0)).2 + 1) - 2 * A.ptS (adm.getD i (0, 0)).2, fun i j => i + j + 1⟩
  D i := if i < A.nLeaf then
      ⟨2 * (A.ptE (A.heightNodes i) + 1) - 2 * A.ptS (A.heightNodes i), 2 * (A.ptE (A.heightNodes i) + 1) - 2 * A.ptS (A.heightNodes i), fun i j => i + j + 1⟩
    else ⟨2 * (A.ptE (inadm.getD (i - A.nLeaf) (0, 0)).1 + 1) - 2 * A.ptS (inadm.getD (i - A.nLeaf) (0, 0)).1,
          2 * (A.ptE (inadm.getD (i - A.nLeaf) (0, 0)).2 + 1) - 2 * A.ptS (inadm.getD (i - A.nLeaf) (0, 0)).2, fun i j => i + j + 1⟩
  minAdm := minAdm
  mark _ := 1

theorem demo_perm (n : Nat) : ((List.range n).map (fun i => n - 1 - i)).Perm (List.range n) := by
  rw [List.perm_ext_iff_of_nodup]
  · intro a
    rw [List.mem_map, List.mem_range]
    constructor
    · rintro ⟨i, hi, rfl⟩; rw [List.mem_range] at hi; omega
    · intro ha; exact ⟨n - 1 - a, List.mem_range.2 (by omega), by omega⟩
  · refine List.Nodup.map_on ?_ List.nodup_range
    intro x hx y hy h
    rw [List.mem_range] at hx hy
    omega
  · exact List.nodup_range

theorem demo_WF {A : Arr ℚ} {n : Nat} (T : ClusterTree A n) (adm inadm : List (Nat × Nat)) (minAdm : Nat)
    (h1 : ∀ x ∈ adm, x.1 < A.nNode ∧ x.2 < A.nNode ∧ minAdm ≤ max (A.level x.1) (A.level x.2))
    (h2 : ∀ x ∈ inadm, x.1 < A.nNode ∧ x.2 < A.nNode) : WF (demoRep A n adm inadm minAdm) where
  tree := T
  kdim := by simp [demoRep]
  perm := demo_perm n
  rank := by intro v _ _; simp [demoRep]
  uLeaf := by intro v _ _ h0; simp only [demoRep, if_pos h0, Rep.rowE, Rep.rowS] at *; rw [if_pos h0]
  uInner := by
    intro v _ _ h0
    have : (demoRep A n adm inadm minAdm).arr = A := rfl
    rw [this] at h0 ⊢
    unfold off
    simp [demoRep, h0]
  admNode := fun x hx => ⟨(h1 x hx).1, (h1 x hx).2.1⟩
  admLevel := fun x hx => (h1 x hx).2.2
  marked := by intro x _; simp [demoRep]
  bRow := by
    intro i hi
    have hi' : i < adm.length := hi
    simp [demoRep, Rep.rowE, Rep.rowS, hi']
  bCol := by
    intro i hi
    have hi' : i < adm.length := hi
    simp [demoRep, Rep.rowE, Rep.rowS, hi']
  inadmNode := fun x hx => h2 x hx
  d0 := by
    intro i hi
    have hi' : i < A.nLeaf := hi
    simp [demoRep, Rep.rowE, Rep.rowS, hi', Rep.leaf]
  d1 := by
    intro i hi
    have hi' : i < inadm.length := hi
    simp [demoRep, Rep.rowE, Rep.rowS, hi']

/-- Two threads, one task per block, blocks alternate between the threads, buffers full of `7`s. -/
def demoEnv (R : Rep ℚ) : Env ℚ where
  nThread := 2
  team := 2
  junk0 _ _ := 7
  junk1 _ _ := 7
  junkT _ _ := 7
  junkP _ _ := 7
  nrow0 _ := 7
  ncol1 _ := 7
  fwdOrd l := (R.levelList l).reverse
  bwdOrd l := (R.levelList l).reverse
  nB := R.adm.length
  blkB := id
  schedB := (List.range R.adm.length).map fun i => (i % 2, i)
  nD0 := R.arr.nLeaf
  blkD0 := id
  schedD0 := (List.range R.arr.nLeaf).map fun i => (i % 2, i)
  nD1 := R.inadm.length
  blkD1 := id
  schedD1 := (List.range R.inadm.length).map fun i => (i % 2, i)
  redOrd := [1, 0]

theorem demo_sched (n : Nat) : Sched 2 n ((List.range n).map fun i => (i % 2, i)) := by
  constructor
  · rw [List.map_map]; simp [Function.comp_def]
  · intro x hx
    obtain ⟨i, _, rfl⟩ := List.mem_map.1 hx
    exact Nat.mod_lt _ (by decide)

theorem demo_valid (R : Rep ℚ) : (demoEnv R).Valid R where
  threads := by simp [demoEnv]
  team := rfl
  fwd := fun _ => List.reverse_perm _
  bwd := fun _ => List.reverse_perm _
  cutB := ⟨rfl, rfl, by intro b _; simp [demoEnv]⟩
  cutD0 := ⟨rfl, rfl, by intro b _; simp [demoEnv]⟩
  cutD1 := ⟨rfl, rfl, by intro b _; simp [demoEnv]⟩
  schedB := demo_sched _
  schedD0 := demo_sched _
  schedD1 := demo_sched _
  red := by show [1, 0].Perm (List.range 2); decide

/-- Tree and pairs of six points on a line (Props/AdmPairs.lean), with the two children of the root as an admissible
pair and a pair on different levels. -/
theorem demo_case : ∃ R : Rep ℚ, WF R ∧ SymDiag R ∧ R.nPoint = 6 ∧ R.kdim = 2 ∧ 2 ≤ R.arr.nChild (R.arr.nNode - 1) ∧ 2 ≤ R.adm.length := by
  obtain ⟨O, h, h2⟩ := H2Pack.Part.line_partition
  have hr : O.arr.nNode - 1 < O.arr.nNode := by have := h.tree.nonempty; omega
  have hlen : (kids O.arr (O.arr.nNode - 1)).length = O.arr.nChild (O.arr.nNode - 1) := by unfold kids; simp
  have hk : ∀ i (hi : i < (kids O.arr (O.arr.nNode - 1)).length), (kids O.arr (O.arr.nNode - 1))[i] < O.arr.nNode ∧
      O.arr.level (kids O.arr (O.arr.nNode - 1))[i] = 1 := by
    intro i hi
    have := h.tree.childLt _ hr _ (List.getElem_mem hi)
    have h3 := h.tree.childLevel _ hr _ (List.getElem_mem hi)
    have h4 := h.tree.rootLevel
    omega
  refine ⟨demoRep O.arr 6 [((kids O.arr (O.arr.nNode - 1))[0], (kids O.arr (O.arr.nNode - 1))[1]), ((kids O.arr (O.arr.nNode - 1))[0], O.arr.nNode - 1)] [((kids O.arr (O.arr.nNode - 1))[0], (kids O.arr (O.arr.nNode - 1))[1])] 1,
    demo_WF h.tree _ _ _ ?_ ?_, ?_, rfl, rfl, h2, by simp [demoRep]⟩
  · intro x hx
    have a := hk 0 (by omega)
    have b := hk 1 (by omega)
    rcases List.mem_cons.1 hx with rfl | hx
    · exact ⟨a.1, b.1, by dsimp only; omega⟩
    · rw [List.mem_singleton] at hx; subst hx
      exact ⟨a.1, hr, by dsimp only; omega⟩
  · intro x hx
    rw [List.mem_singleton] at hx; subst hx
    exact ⟨(hk 0 (by omega)).1, (hk 1 (by omega)).1⟩
  · intro i hi a _ b _
    have hi' : i < O.arr.nLeaf := hi
    simp only [demoRep, hi', if_true]
    ring

/-- The hypotheses of C20, C21 and C22 are met. -/
example : ∃ (R : Rep ℚ), WF R ∧ SymDiag R ∧ Nested R (basis R) ∧ (demoEnv R).Valid R ∧ 2 ≤ R.adm.length := by
  obtain ⟨R, h, hs, _, _, _, h2⟩ := demo_case
  exact ⟨R, h, hs, basis_nested h, demo_valid R, h2⟩

/-! ## Rank zero -/

/-- Tree with leaves 0, 1, 3, node 2 = {0, 1}, root 4 = {2, 3}; one point per leaf; node 0 has rank zero, the other
nodes have rank one; nodes 2 and 3 are an admissible pair. -/
def staleRep : Rep ℚ where
  arr := {
    nNode := 5, nLeaf := 3, maxLevel := 2, maxChild := 2
    parent := fun v => [2, 2, 4, 4, -1].getD v 0
    children := fun k => [-1, -1, -1, -1, 0, 1, -1, -1, 2, 3].getD k 0
    nChild := fun v => [0, 0, 2, 0, 2].getD v 0
    level := fun v => [2, 2, 1, 1, 0].getD v 0
    height := fun v => [0, 0, 1, 0, 2].getD v 0
    ptS := fun v => [0, 1, 0, 2, 0].getD v 0
    ptE := fun v => [0, 1, 1, 2, 2].getD v 0
    enbox := fun _ => ⟨fun _ => 0, fun _ => 0⟩
    levelN := fun l => [1, 2, 2].getD l 0
    levelNodes := fun k => [4, 0, 0, 2, 3, 0, 0, 1, 0].getD k 0
    heightN := fun l => [3, 1, 1].getD l 0
    heightNodes := fun k => [0, 1, 3, 2, 0, 0, 4, 0, 0].getD k 0 }
  nPoint := 3
  kdim := 1
  coordIdx := id
  U v := ⟨1, [0, 1, 1, 1, 1].getD v 0, fun _ _ => 1⟩
  adm := [(2, 3)]
  inadm := []
  B _ := ⟨1, 1, fun _ _ => 1⟩
  D _ := ⟨1, 1, fun _ _ => 1⟩
  minAdm := 1
  mark v := [0, 0, 1, 1, 0].getD v 0

/-- One thread, `y1_tmp` holds the number `j` when node 0 is processed. -/
def staleEnv (j : ℚ) : Env ℚ where
  nThread := 1
  team := 1
  junk0 _ _ := 0
  junk1 _ _ := 0
  junkT v _ := if v = 0 then j else 0
  junkP _ _ := 0
  nrow0 _ := 0
  ncol1 _ := 0
  fwdOrd := staleRep.levelList
  bwdOrd := staleRep.levelList
  nB := 1
  blkB := id
  schedB := [(0, 0)]
  nD0 := 3
  blkD0 := id
  schedD0 := [(0, 0), (0, 1), (0, 2)]
  nD1 := 0
  blkD1 := id
  schedD1 := []
  redOrd := [0]

/-- The requirement of positive rank cannot be dropped from C20 / C22: `cblas_dgemv` with an empty inner dimension
does not write its output, and what an earlier use left in `y1_tmp` is added to the result. -/
theorem C22_rank_zero_stale : matvecPmt staleRep (staleEnv 0) (fun _ => 1) 0 = 1 ∧ matvecPmt staleRep (staleEnv 5) (fun _ => 1) 0 = 6 := by
  constructor <;> decide +kernel

end H2Pack.MV
