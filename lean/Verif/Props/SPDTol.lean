import Verif.Props.SPDExact
import Verif.Proof.SPD20

/-! # C63: truncation with a relative tolerance in the SPD HSS construction -/

set_option linter.unusedSectionVars false

namespace H2Pack.SPD
open H2Pack.MV (Mat Rep Blk WF Nested entry kid off kid_mem)
open H2Pack.Part (Arr Pairs kids ClusterTree calcPairs Desc)
open H2Pack.ULV (HSS shifted Represents InRow)
open Finset

section
variable {P : Params} {R : Rep ℝ} {W : Nat → Nat → Nat → ℝ} {nvec : Nat} {pv hss : Pairs} {mark : Nat → Nat} {adm : Nat → Nat → Bool}
  {getB getD : Nat → Nat → Option (Blk ℝ)} {ord : Nat → List Nat} {pord : Nat → List (Nat × Nat)} {Y : Nat → Nat → Option (Mat ℝ)} {vec : Nat → ℝ}

/-- In an HSS matrix the rows of a node outside its diagonal block have at most as large a rank as its basis has columns. -/
theorem C63_rank_bound {H : Rep ℝ} (hH : HSS H) {W : Nat → Nat → Nat → ℝ} (hW : Nested H W) {v : Nat} (hv : v < H.arr.nNode) :
    (offRows H (entry H W) v).rank ≤ (H.U v).ncol := off_rank hH hW hv

/-- C63: with a positive relative tolerance, the basis of a leaf never has the number of columns that its samples need: let `rho` be the rank of the samples of the
leaf, smaller than its number of rows, the number of samples and `max_rank`. Then the basis either keeps all columns it could have, or has less than `rho`
columns, and then the result is not `A + shift I`. -/
theorem C63_tolerance (I : Input P R nvec pv hss mark adm getB getD ord pord Y) (hpv : P.lq.Pivoted) (hW : Nested R W)
    {A : Matrix (Fin R.size) (Fin R.size) ℝ} (hA : Represents R W P.shift A) (hp : A.PosDef)
    (hS : Samples R (entry R W) nvec vec Y) (ht : 0 < P.reltol) {v : Nat} (hv : v < R.arr.nNode) (h0 : R.arr.nChild v = 0)
    (h1 : 1 ≤ (offRows R (entry R W) v * randMat R.size nvec vec).rank)
    (h2 : (offRows R (entry R W) v * randMat R.size nvec vec).rank < min (min (R.rowE v - R.rowS v) nvec) P.maxRank)
    {H : Rep ℝ} {f : Bool} (hb : Returns (build P R pv hss mark adm getB getD ord pord Y) (H, f)) :
    (H.U v).ncol = min (min (R.rowE v - R.rowS v) nvec) P.maxRank ∨
      (0 < (H.U v).ncol ∧ (H.U v).ncol + 1 ≤ (offRows R (entry R W) v * randMat R.size nvec vec).rank ∧
        ∀ W', Nested H W' → ∃ r < R.size, ∃ q < R.size, entry H W' r q ≠ shifted R W P.shift r q) := by
  have C := I.ctx hW hA hp
  have hwf := I.src.wf
  have T := hwf.tree
  have hvr : v + 1 < R.arr.nNode := by
    have : v ≠ R.arr.nNode - 1 := by rintro rfl; exact I.src.root h0
    omega
  obtain ⟨Ty, hTy⟩ := content_exists hwf I.sampled
  obtain ⟨H', g, e, hB, _, _, _, _, hcap⟩ := build_cap C I.hss I.sampled hTy I.ord I.pord
  obtain rfl : H = H' := congrArg Prod.fst (ret_unique hb e)
  obtain ⟨F, G, hFG⟩ := rank_factor (offRows R (entry R W) v * randMat R.size nvec vec) (le_refl _)
  have hTyv : ∀ r, InRow R v r → ∀ j < nvec, ∀ (hr : r < R.size) (hj : j < nvec),
      (offRows R (entry R W) v * randMat R.size nvec vec) ⟨r, hr⟩ ⟨j, hj⟩ = Ty (R.arr.level v) r j := by
    intro r hr j hj hrs hj'
    rw [off_sample hwf hTy hS hvr, if_pos (show InRow R v r from hr)]
  have key := cap_tol hwf I.lq hpv ht hv h0 (hcap v hvr) (F := F) (G := G) (rho := (offRows R (entry R W) v * randMat R.size nvec vec).rank)
    (by rw [m_leaf h0]; exact h2) (by
      intro r hr j hj
      rw [← hTyv r hr j hj (row_lt hwf hv hr) hj]
      exact hFG _ _) (by
      by_contra hall
      push Not at hall
      have hz : offRows R (entry R W) v * randMat R.size nvec vec = 0 := by
        ext r j
        rw [off_sample hwf hTy hS hvr]
        split
        · rename_i hr; exact hall r hr j j.2
        · rfl
      rw [hz, Matrix.rank_zero] at h1
      omega)
  rw [m_leaf h0] at key
  rw [hB.U v hvr]
  rcases key with hk | ⟨hk0, hk⟩
  · exact Or.inl hk
  refine Or.inr ⟨hk0, hk, fun W' hW' => ?_⟩
  by_contra hall
  push Not at hall
  have hsz : R.size = H.size := by unfold Rep.size; rw [hB.nPoint, hB.kdim]
  have hr := off_rank hB.hss hW' (v := v) (by rw [hB.arr]; exact hv)
  have he : offRows R (entry R W) v = (offRows H (entry H W') v).submatrix (finCongr hsz) (finCongr hsz) := by
    ext r q
    show (if InRow R v r.1 ∧ ¬ InRow R v q.1 then entry R W r.1 q.1 else 0) = (if InRow H v r.1 ∧ ¬ InRow H v q.1 then entry H W' r.1 q.1 else 0)
    by_cases hc : InRow R v r.1 ∧ ¬ InRow R v q.1
    · rw [if_pos hc, if_pos ⟨(hB.inRow _ _).2 hc.1, fun h => hc.2 ((hB.inRow _ _).1 h)⟩, hall r.1 r.2 q.1 q.2, shifted_off (in_ne hc.1 hc.2)]
    · rw [if_neg hc, if_neg (fun h => hc ⟨(hB.inRow _ _).1 h.1, fun h' => h.2 ((hB.inRow _ _).2 h')⟩)]
  have h3 : (offRows R (entry R W) v).rank ≤ (H.U v).ncol := by
    rw [he, Matrix.rank_submatrix]
    exact hr
  have h4 := Matrix.rank_mul_le_left (offRows R (entry R W) v) (randMat R.size nvec vec)
  rw [hB.U v hvr] at h3
  omega

end

/-- C63: samples of rank one are never compressed with a positive tolerance. -/
theorem C63_rank_one {P : Params} {R : Rep ℝ} {W : Nat → Nat → Nat → ℝ} {nvec : Nat} {pv hss : Pairs} {mark : Nat → Nat} {adm : Nat → Nat → Bool}
    {getB getD : Nat → Nat → Option (Blk ℝ)} {ord : Nat → List Nat} {pord : Nat → List (Nat × Nat)} {Y : Nat → Nat → Option (Mat ℝ)} {vec : Nat → ℝ}
    (I : Input P R nvec pv hss mark adm getB getD ord pord Y) (hpv : P.lq.Pivoted) (hW : Nested R W)
    {A : Matrix (Fin R.size) (Fin R.size) ℝ} (hA : Represents R W P.shift A) (hp : A.PosDef)
    (hS : Samples R (entry R W) nvec vec Y) (ht : 0 < P.reltol) {v : Nat} (hv : v < R.arr.nNode) (h0 : R.arr.nChild v = 0)
    (h1 : (offRows R (entry R W) v * randMat R.size nvec vec).rank = 1) (h2 : 1 < min (min (R.rowE v - R.rowS v) nvec) P.maxRank)
    {H : Rep ℝ} {f : Bool} (hb : Returns (build P R pv hss mark adm getB getD ord pord Y) (H, f)) :
    (H.U v).ncol = min (min (R.rowE v - R.rowS v) nvec) P.maxRank := by
  rcases C63_tolerance I hpv hW hA hp hS ht hv h0 (by omega) (by omega) hb with h | ⟨h, h', _⟩
  · exact h
  · omega

/-- C63: the columns kept, from the diagonal of the factor `R` of GEQPF: when entry `k` is the first that is too small, `k - 1` columns are kept if `2 ≤ k`,
and all if `k = 1`. -/
theorem C63_first_small {t : ℝ} {n k : Nat} {d : Nat → ℝ} (hk : k < n) (hs : |d k| < |d 0| * t) (hb : ∀ j < k, |d 0| * t ≤ |d j|) :
    vCols t n d = if 2 ≤ k then k - 1 else n := by
  have : (List.range n).find? (fun k => decide (|d k| < |d 0| * t)) = some k := by
    rw [List.find?_range_eq_some]
    refine ⟨by simpa using hs, List.mem_range.2 hk, fun j hj => by simpa using hb j hj⟩
  unfold vCols
  rw [this]
  rfl

/-! ## A concrete case -/

open H2Pack.MV

/-- Four points with three rows each: 4 on the diagonal, blocks `diag(1, 1, 0)` outside the diagonal blocks, no admissible pair. -/
def none3 : Pairs := ⟨[], [(0, 1), (3, 4), (0, 3), (0, 4), (1, 3), (1, 4)], 2⟩

def four3 : Rep ℝ where
  arr := fourTree
  nPoint := 4
  kdim := 3
  coordIdx := fun i => i
  U v := if fourTree.level v = 2 then ⟨3, 3, fun _ _ => 1⟩ else ⟨0, 0, fun _ _ => 0⟩
  adm := none3.adm
  inadm := none3.inadm
  B _ := ⟨0, 0, fun _ _ => 0⟩
  D i := ⟨3, 3, fun a b => if i < 4 then if a = b then 4 else 0 else if a = b ∧ a < 2 then 1 else 0⟩
  minAdm := 2
  mark _ := 1

theorem four3_wf : WF four3 where
  tree := four_tree
  kdim := by decide
  perm := by
    show ((List.range 4).map fun i => i).Perm (List.range 4)
    decide
  rank := by
    intro v hv hl
    have hv' : v < 7 := hv
    interval_cases v <;> first | exact Nat.succ_pos 2 | exact absurd hl (by decide)
  uLeaf := by
    intro v hv hl h0
    have hv' : v < 7 := hv
    interval_cases v <;> first | rfl | exact absurd hl (by decide)
  uInner := by
    intro v hv hl h0
    have hv' : v < 7 := hv
    interval_cases v <;> first | exact absurd rfl h0 | exact absurd hl (by decide)
  admNode := by intro x hx; exact absurd hx List.not_mem_nil
  admLevel := by intro x hx; exact absurd hx List.not_mem_nil
  marked := by intro x hx; exact absurd hx List.not_mem_nil
  bRow := by intro i hi; exact absurd hi (Nat.not_lt_zero _)
  bCol := by intro i hi; exact absurd hi (Nat.not_lt_zero _)
  inadmNode := by
    show ∀ x ∈ none3.inadm, x.1 < 7 ∧ x.2 < 7
    decide
  d0 := by
    intro i hi
    have hi' : i < 4 := hi
    interval_cases i <;> exact ⟨rfl, rfl⟩
  d1 := by
    intro i hi
    have hi' : i < 6 := hi
    interval_cases i <;> exact ⟨rfl, rfl⟩

theorem none3_found : Returns (fun fuel => calcPairs fourTree (fun _ _ => false) 0 fuel (7 - 1) (7 - 1) ⟨[], [], 2⟩) none3 := by
  refine ⟨5, fun fuel hf => ?_⟩
  obtain ⟨n, rfl⟩ := Nat.exists_eq_add_of_le' hf
  rfl

noncomputable def four3D (v w : Nat) : Option (Blk ℝ) :=
  some ⟨3, 3, 3, fun k => if v = w then if k / 3 = k % 3 then 4 else 0 else if k / 3 = k % 3 ∧ k / 3 < 2 then 1 else 0⟩

theorem four3_source : Source four3 none3 (fun _ _ => false) (fun _ _ => none) four3D where
  wf := four3_wf
  found := none3_found
  adm := rfl
  inadm := rfl
  min := rfl
  low := by
    intro v hv hl
    have hv' : v < 7 := hv
    interval_cases v <;> first | rfl | exact absurd hl (by decide)
  root := by decide
  small := by decide
  b := by intro i hi; exact absurd hi (Nat.not_lt_zero _)
  d0 := by
    intro i hi
    have hi' : i < 4 := hi
    refine ⟨_, rfl, fun r _ c hc => ?_⟩
    have hc' : c < 3 := hc
    obtain ⟨e1, e2⟩ := div_mod_row (r := r) hc'
    show (if _ then if (r * 3 + c) / 3 = (r * 3 + c) % 3 then (4 : ℝ) else 0 else _) = if i < 4 then if r = c then 4 else 0 else _
    rw [e1, e2, if_pos rfl, if_pos hi']
  d1 := by
    intro i hi
    have hi' : i < 6 := hi
    refine ⟨_, rfl, fun r _ c hc => ?_⟩
    have hc' : c < 3 := hc
    obtain ⟨e1, e2⟩ := div_mod_row (r := r) hc'
    show (if four3.inadm[i].1 = four3.inadm[i].2 then _ else if (r * 3 + c) / 3 = (r * 3 + c) % 3 ∧ (r * 3 + c) / 3 < 2 then (1 : ℝ) else 0) =
      if 4 + i < 4 then _ else if r = c ∧ r < 2 then 1 else 0
    have hne : ∀ x ∈ none3.inadm, x.1 ≠ x.2 := by decide
    rw [e1, e2, if_neg (show ¬ 4 + i < 4 by omega)]
    exact if_neg (hne _ (List.getElem_mem hi))

theorem four3_hss : HssPairs four3 fourHss (fun _ => 1) where
  pairs := four_hss.pairs
  nodup := by decide
  inadm := rfl
  min := rfl
  marked := four_hss.marked

/-- The entries, as natural numbers. -/
def four3E (r q : Nat) : Nat := if r / 3 = q / 3 then if r = q then 4 else 0 else if r % 3 = q % 3 ∧ r % 3 < 2 then 1 else 0

theorem four3_upper {W : Nat → Nat → Nat → ℝ} (hW : Nested four3 W) {r q : Nat} (hr : r < 12) (hq : q < 12) (hrq : r / 3 ≤ q / 3) :
    entry four3 W r q = four3E r q := by
  obtain ⟨_, _, f3, _⟩ := found_spec four3_wf.tree none3_found
  obtain ⟨t1, t2, t3⟩ := entry_eq four3_wf hW (pv := none3) rfl rfl f3 (r := r) (q := q) hr hq
  have D : ∀ i < 4, r / 3 = i → q / 3 = i → fourTree.ptS (fourTree.heightNodes i) = i → fourTree.ptE (fourTree.heightNodes i) = i → entry four3 W r q = four3E r q := by
    intro i hi h1 h2 h3 h4
    have e1 : four3.rowS (four3.leaf i) = 3 * i := congrArg (3 * ·) h3
    have e2 : four3.rowE (four3.leaf i) = 3 * (i + 1) := congrArg (fun x => 3 * (x + 1)) h4
    rw [t1 i hi (by rw [e1, e2]; omega) (by rw [e1, e2]; omega), e1]
    show (if i < 4 then if r - 3 * i = q - 3 * i then (4 : ℝ) else 0 else _) = _
    unfold four3E
    rw [if_pos hi, if_pos (h1.trans h2.symm)]
    by_cases h : r = q
    · rw [if_pos (by omega), if_pos h]; norm_num
    · rw [if_neg (by omega), if_neg h]; norm_num
  have O : ∀ k (hk : k < 6), ∀ i j, i ≠ j → r / 3 = i → q / 3 = j → fourTree.ptS none3.inadm[k].1 = i → fourTree.ptE none3.inadm[k].1 = i →
      fourTree.ptS none3.inadm[k].2 = j → fourTree.ptE none3.inadm[k].2 = j → entry four3 W r q = four3E r q := by
    intro k hk i j hij h1 h2 h3 h4 h5 h6
    have e1 : four3.rowS four3.inadm[k].1 = 3 * i := congrArg (3 * ·) h3
    have e2 : four3.rowE four3.inadm[k].1 = 3 * (i + 1) := congrArg (fun x => 3 * (x + 1)) h4
    have e3 : four3.rowS four3.inadm[k].2 = 3 * j := congrArg (3 * ·) h5
    have e4 : four3.rowE four3.inadm[k].2 = 3 * (j + 1) := congrArg (fun x => 3 * (x + 1)) h6
    rw [t2 k hk (by rw [e1, e2]; omega) (by rw [e3, e4]; omega), e1, e3]
    show (if 4 + k < 4 then _ else if r - 3 * i = q - 3 * j ∧ r - 3 * i < 2 then (1 : ℝ) else 0) = _
    unfold four3E
    rw [if_neg (show ¬ 4 + k < 4 by omega), if_neg (show ¬ r / 3 = q / 3 by omega)]
    by_cases h : r % 3 = q % 3 ∧ r % 3 < 2
    · rw [if_pos (by omega), if_pos h]; norm_num
    · rw [if_neg (by omega), if_neg h]; norm_num
  obtain ⟨i, hi⟩ : ∃ i, r / 3 = i := ⟨_, rfl⟩
  obtain ⟨j, hj⟩ : ∃ j, q / 3 = j := ⟨_, rfl⟩
  have hi' : i < 4 := by omega
  have hj' : j < 4 := by omega
  have hij : i ≤ j := by omega
  interval_cases i <;> interval_cases j
  · exact D 0 (by decide) hi hj rfl rfl
  · exact O 0 (by decide) 0 1 (by decide) hi hj rfl rfl rfl rfl
  · exact O 2 (by decide) 0 2 (by decide) hi hj rfl rfl rfl rfl
  · exact O 3 (by decide) 0 3 (by decide) hi hj rfl rfl rfl rfl
  · exact D 1 (by decide) hi hj rfl rfl
  · exact O 4 (by decide) 1 2 (by decide) hi hj rfl rfl rfl rfl
  · exact O 5 (by decide) 1 3 (by decide) hi hj rfl rfl rfl rfl
  · exact D 2 (by decide) hi hj rfl rfl
  · exact O 1 (by decide) 2 3 (by decide) hi hj rfl rfl rfl rfl
  · exact D 3 (by decide) hi hj rfl rfl

theorem four3_entry {W : Nat → Nat → Nat → ℝ} (hW : Nested four3 W) {r q : Nat} (hr : r < 12) (hq : q < 12) : entry four3 W r q = four3E r q := by
  rcases Nat.le_total (r / 3) (q / 3) with h | h
  · exact four3_upper hW hr hq h
  · rw [entry_symm four3_wf, four3_upper hW hq hr h]
    · norm_cast
      unfold four3E
      simp only [eq_comm (a := q)]
      by_cases h1 : r / 3 = q / 3
      · rw [if_pos h1, if_pos (by omega)]
      · rw [if_neg h1, if_neg (by omega)]
        by_cases h2 : r % 3 = q % 3 ∧ r % 3 < 2
        · rw [if_pos h2, if_pos (by omega)]
        · rw [if_neg h2, if_neg (by omega)]
    · intro i hi a ha b hb
      have hi' : i < 4 := hi
      show (if i < 4 then if a = b then (4 : ℝ) else 0 else _) = if i < 4 then if b = a then 4 else 0 else _
      rw [if_pos hi', if_pos hi']
      simp only [eq_comm]

/-- The random matrix: four identities. -/
def four3V (n : Nat) : Nat := if n / 3 % 3 = n % 3 then 1 else 0

noncomputable def four3Y (v l : Nat) : Option (Mat ℝ) :=
  if fourTree.nChild v = 0 ∧ l < 2 then some ⟨3, 3, fun i j => if i = j ∧ i < 2 then if l = 0 then 3 else 2 else 0⟩ else some ⟨0, 0, fun _ _ => 0⟩

theorem four3_sampled : Sampled four3 3 four3Y where
  leaf := by
    intro v hv h0 l hl
    have hv' : v < 7 := hv
    have hl' : l < 2 := by
      have : fourTree.level v ≤ 2 := by interval_cases v <;> decide
      exact lt_of_lt_of_le hl this
    have hr : four3.rowE v - four3.rowS v = 3 := by
      interval_cases v <;> first | rfl | exact absurd h0 (by decide)
    rw [hr]
    exact ⟨_, if_pos ⟨h0, hl'⟩⟩
  rest := by
    intro v hv l hl h
    have hv' : v < 7 := hv
    have hl' : l < 2 := hl
    refine ⟨_, if_neg ?_⟩
    rintro ⟨h0, _⟩
    rcases h with h | h
    · exact h h0
    · have : fourTree.level v = 2 := by interval_cases v <;> first | rfl | exact absurd h0 (by decide)
      have h' : fourTree.level v ≤ l := h
      omega

theorem four3_samples {W : Nat → Nat → Nat → ℝ} (hW : Nested four3 W) : Samples four3 (entry four3 W) 3 (fun n => four3V n) four3Y := by
  intro v hv h0 l hl u hu d e
  have hv' : v < 7 := hv
  have hu' : u < 7 := hu
  have hlv : fourTree.level v ≤ 2 := by clear e hl d h0; interval_cases v <;> decide
  have hl' : l < 2 := lt_of_lt_of_le hl hlv
  have hr : four3.rowE v - four3.rowS v = 3 := by
    clear e hl d; interval_cases v <;> first | rfl | exact absurd h0 (by decide)
  rw [hr]
  refine ⟨_, if_pos ⟨h0, hl'⟩, ?_⟩
  intro i hi j hj
  obtain ⟨hin1, hin2⟩ := H2Pack.ULV.row_desc four3_wf hu d (row_exists four3_wf hv)
  have hs : four3.rowS v + i < 12 := by
    have : four3.rowS v ≤ 9 := by clear hin1 hin2 e hl d h0 hr; interval_cases v <;> decide
    omega
  have hsum : ∀ q ∈ Finset.range four3.size, (if four3.rowS u ≤ q ∧ q < four3.rowE u then (0 : ℝ) else entry four3 W (four3.rowS v + i) q * (four3V (q * 3 + j) : ℝ)) =
      ((if four3.rowS u ≤ q ∧ q < four3.rowE u then 0 else four3E (four3.rowS v + i) q * four3V (q * 3 + j) : Nat) : ℝ) := by
    intro q hq
    have hq' : q < 12 := Finset.mem_range.1 hq
    by_cases h : four3.rowS u ≤ q ∧ q < four3.rowE u
    · rw [if_pos h, if_pos h, Nat.cast_zero]
    · rw [if_neg h, if_neg h, four3_entry hW hs hq', Nat.cast_mul]
  rw [Finset.sum_congr rfl hsum, ← Nat.cast_sum]
  have key : (u = v ∧ l = 0) ∨ ((v, u) ∈ [(0, 2), (1, 2), (3, 5), (4, 5)] ∧ l = 1) := by
    have e' : fourTree.level u + l = fourTree.level v := e
    have hl2 : l < fourTree.level v := hl
    have h1 : fourTree.ptS u ≤ fourTree.ptS v := by have : 3 * fourTree.ptS u ≤ 3 * fourTree.ptS v := hin1; omega
    have h2 : fourTree.ptS v ≤ fourTree.ptE u := by have : 3 * fourTree.ptS v < 3 * (fourTree.ptE u + 1) := hin2; omega
    clear hsum hin1 hin2 hl e d hr hs
    interval_cases l <;> interval_cases v <;> interval_cases u <;> revert e' hl2 h1 h2 h0 <;> decide
  have fin : ∀ k : Nat, (∑ q ∈ Finset.range four3.size, if four3.rowS u ≤ q ∧ q < four3.rowE u then 0 else four3E (four3.rowS v + i) q * four3V (q * 3 + j)) =
      (if i = j ∧ i < 2 then k else 0) → (if l = 0 then 3 else 2) = k → (if i = j ∧ i < 2 then if l = 0 then (3 : ℝ) else 2 else 0) =
      ((∑ q ∈ Finset.range four3.size, if four3.rowS u ≤ q ∧ q < four3.rowE u then 0 else four3E (four3.rowS v + i) q * four3V (q * 3 + j) : Nat) : ℝ) := by
    intro k h1 h2
    rw [h1, ← h2]
    split <;> simp
  rcases key with ⟨rfl, rfl⟩ | ⟨hu2, rfl⟩
  · refine fin 3 ?_ rfl
    clear hsum hin1 hin2 hl e d hr hs fin
    have hv4 : u ∈ [0, 1, 3, 4] := by interval_cases u <;> revert h0 <;> decide
    simp only [List.mem_cons, List.not_mem_nil, or_false] at hv4
    rcases hv4 with rfl | rfl | rfl | rfl <;> interval_cases i <;> interval_cases j <;> rfl
  · refine fin 2 ?_ rfl
    clear hsum hin1 hin2 hl e d hr hs fin
    simp only [List.mem_cons, List.not_mem_nil, or_false, Prod.mk.injEq] at hu2
    rcases hu2 with ⟨rfl, rfl⟩ | ⟨rfl, rfl⟩ | ⟨rfl, rfl⟩ | ⟨rfl, rfl⟩ <;> interval_cases i <;> interval_cases j <;> rfl

/-- The matrix. -/
def four3Mat : Matrix (Fin 12) (Fin 12) ℝ := fun r q => four3E r q

theorem four3_represents {W : Nat → Nat → Nat → ℝ} (hW : Nested four3 W) : Represents four3 W 0 four3Mat := by
  intro i hi a ha j hj b hb x y hx hy
  have hx' : x.1 = i * 3 + a := hx
  have hy' : y.1 = j * 3 + b := hy
  have h1 : i * 3 + a < 12 := by have : i < 4 := hi; have : a < 3 := ha; omega
  have h2 : j * 3 + b < 12 := by have : j < 4 := hj; have : b < 3 := hb; omega
  have e := four3_entry hW h1 h2
  show (four3E x.1 y.1 : ℝ) = entry four3 W (i * 3 + a) (j * 3 + b) + if _ then 0 else 0
  rw [hx', hy', e]
  simp

theorem four3_posDef : four3Mat.PosDef := by
  have e : four3Mat = (3 : ℝ) • (1 : Matrix (Fin 12) (Fin 12) ℝ) +
      (Matrix.vecMulVec (fun r => if r.1 % 3 = 0 then 1 else 0) (star fun r => if r.1 % 3 = 0 then 1 else 0) +
      (Matrix.vecMulVec (fun r => if r.1 % 3 = 1 then 1 else 0) (star fun r => if r.1 % 3 = 1 then 1 else 0) +
      Matrix.diagonal fun r => if r.1 % 3 = 2 then 1 else 0)) := by
    have h : ∀ r q : Fin 12, four3E r q = 3 * (if r = q then 1 else 0) + ((if r.1 % 3 = 0 then 1 else 0) * (if q.1 % 3 = 0 then 1 else 0) +
        ((if r.1 % 3 = 1 then 1 else 0) * (if q.1 % 3 = 1 then 1 else 0) + if r = q then if r.1 % 3 = 2 then 1 else 0 else 0)) := by decide
    ext r q
    show (four3E r q : ℝ) = _
    rw [h]
    simp [Matrix.vecMulVec_apply, Matrix.one_apply, Matrix.diagonal_apply]
  rw [e]
  refine Matrix.PosDef.add_posSemidef (Matrix.PosDef.one.smul (by norm_num)) ?_
  refine (Matrix.posSemidef_vecMulVec_self_star _).add ((Matrix.posSemidef_vecMulVec_self_star _).add ?_)
  rw [Matrix.posSemidef_diagonal_iff]
  intro r
  split <;> norm_num

/-- The samples of the first leaf. -/
theorem four3_sample {W : Nat → Nat → Nat → ℝ} (hW : Nested four3 W) (r : Fin four3.size) (j : Fin 3) :
    (offRows four3 (entry four3 W) 0 * randMat four3.size 3 (fun n => (four3V n : ℝ))) r j = if r.1 < 3 ∧ r.1 = j.1 ∧ j.1 < 2 then 3 else 0 := by
  have h : ∀ (r : Fin 12) (j : Fin 3), ∑ q : Fin 12, (if (0 ≤ r.1 ∧ r.1 < 3) ∧ ¬ (0 ≤ q.1 ∧ q.1 < 3) then four3E r q else 0) * four3V (q * 3 + j) =
      if r.1 < 3 ∧ r.1 = j.1 ∧ j.1 < 2 then 3 else 0 := by decide +kernel
  rw [Matrix.mul_apply]
  have h2 : ∀ q : Fin 12, offRows four3 (entry four3 W) 0 r q * randMat four3.size 3 (fun n => (four3V n : ℝ)) q j =
      (((if (0 ≤ r.1 ∧ r.1 < 3) ∧ ¬ (0 ≤ q.1 ∧ q.1 < 3) then four3E r q else 0) * four3V (q * 3 + j) : Nat) : ℝ) := by
    intro q
    rw [Nat.cast_mul]
    show (if (0 ≤ r.1 ∧ r.1 < 3) ∧ ¬ (0 ≤ q.1 ∧ q.1 < 3) then entry four3 W r q else 0) * (four3V (q * 3 + j) : ℝ) = _
    congr 1
    split
    · exact four3_entry hW r.2 q.2
    · rw [Nat.cast_zero]
  refine (Finset.sum_congr rfl fun q _ => h2 q).trans ?_
  refine (Nat.cast_sum _ _).symm.trans ?_
  refine (congrArg (Nat.cast (R := ℝ)) (h r j)).trans ?_
  split <;> norm_num

theorem four3_rank {W : Nat → Nat → Nat → ℝ} (hW : Nested four3 W) :
    1 ≤ (offRows four3 (entry four3 W) 0 * randMat four3.size 3 (fun n => (four3V n : ℝ))).rank ∧
    (offRows four3 (entry four3 W) 0 * randMat four3.size 3 (fun n => (four3V n : ℝ))).rank < 3 := by
  constructor
  · by_contra h0
    obtain ⟨F, G, hFG⟩ := rank_factor (offRows four3 (entry four3 W) 0 * randMat four3.size 3 (fun n => (four3V n : ℝ))) (c := 0) (by omega)
    have h := hFG (⟨0, by decide⟩ : Fin four3.size) 0
    rw [Finset.sum_range_zero] at h
    have h' := (four3_sample hW ⟨0, by decide⟩ 0).symm.trans h
    norm_num at h'
  · have e : offRows four3 (entry four3 W) 0 * randMat four3.size 3 (fun n => (four3V n : ℝ)) =
        (Matrix.of fun (r : Fin four3.size) (t : Fin 2) => if r.1 = t.1 then (3 : ℝ) else 0) * Matrix.of fun (t : Fin 2) (j : Fin 3) => if t.1 = j.1 then (1 : ℝ) else 0 := by
      refine Matrix.ext fun (r : Fin four3.size) (j : Fin 3) => ?_
      refine (four3_sample hW r j).trans ?_
      rw [Matrix.mul_apply, Fin.sum_univ_two]
      have hr : r.1 < 12 := r.2
      fin_cases j
      all_goals simp
      all_goals split <;> simp_all <;> omega
    rw [e]
    have := le_trans (Matrix.rank_mul_le_left (Matrix.of fun (r : Fin four3.size) (t : Fin 2) => if r.1 = t.1 then (3 : ℝ) else 0)
      (Matrix.of fun (t : Fin 2) (j : Fin 3) => if t.1 = j.1 then (1 : ℝ) else 0)) (Matrix.rank_le_width _)
    exact lt_of_le_of_lt this (by decide)

/-- The hypotheses of C63 are met. -/
example : ∃ (P : Params) (pord : Nat → List (Nat × Nat)) (H : Rep ℝ), P.reltol = 1 / 1000 ∧ P.maxRank = 100 ∧
    Returns (build P four3 none3 fourHss (fun _ => 1) (fun _ _ => false) (fun _ _ => none) four3D four3.levelList pord four3Y) (H, true) ∧
    ((H.U 0).ncol = 3 ∨ ((H.U 0).ncol = 1 ∧
      ∀ W', Nested H W' → ∃ r < 12, ∃ q < 12, entry H W' r q ≠ four3E r q)) := by
  obtain ⟨lp, h1, h2⟩ := H2Pack.ULV.lapack_exists
  obtain ⟨lq, h3, h4⟩ := lapack3_exists
  have hp : ∀ l, ∃ L : List (Nat × Nat), 1 ≤ l → l ≤ 2 → Returns (fun fuel => levelPairs fourTree none3 fuel (2 - l)) L := by
    intro l
    by_cases h : 1 ≤ l ∧ l ≤ 2
    · obtain ⟨L, e, _⟩ := C58_level_pairs four_tree (by decide) none3_found l h.1 h.2
      exact ⟨L, fun _ _ => e⟩
    · exact ⟨[], fun h1 h2 => absurd ⟨h1, h2⟩ h⟩
  choose L hL using hp
  have I : Input ⟨lp, lq, 100, 1 / 1000, 0, fun _ _ _ => 7⟩ four3 3 none3 fourHss (fun _ => 1) (fun _ _ => false) (fun _ _ => none) four3D four3.levelList L four3Y :=
    ⟨h1, h2, h3, by show 0 < 100; decide, by decide, four3_source, four3_hss, four3_sampled, fun _ => List.Perm.refl _, fun l h1 h2 => ⟨L l, hL l h1 h2, List.Perm.refl _⟩⟩
  have hW := basis_nested four3_wf
  obtain ⟨H, e, hH, _⟩ := C57_spdhss_build I hW (four3_represents hW) four3_posDef
  refine ⟨_, L, H, rfl, rfl, e, ?_⟩
  obtain ⟨k1, k2⟩ := four3_rank hW
  rcases C63_tolerance I h4 hW (four3_represents hW) four3_posDef (four3_samples hW) (by norm_num) (v := 0) (by decide) rfl k1 k2 e with h | ⟨p1, p2, p3⟩
  · exact Or.inl h
  · right
    have k2' : (offRows four3 (entry four3 (basis four3)) 0 * randMat four3.size 3 (fun n => (four3V n : ℝ))).rank < 3 := k2
    refine ⟨by omega, fun W' hW' => ?_⟩
    obtain ⟨r, hr, q, hq, hne⟩ := p3 W' hW'
    refine ⟨r, hr, q, hq, ?_⟩
    rw [← four3_entry hW hr hq]
    unfold shifted at hne
    simpa using hne

end H2Pack.SPD
