import Verif.Model.DirectNbody
import Verif.Props.BlockPart
import Mathlib.Algebra.BigOperators.Group.List.Basic
import Mathlib.Algebra.BigOperators.Intervals
import Mathlib.Data.Rat.Defs

/-! # C100: the direct product with a kernel matrix -/

namespace H2Pack.NBody
open Finset
open H2Pack.MV (kmat)

section spec
variable {K : Type} [CommRing K]

/-- Component `a` at target point `p` of the product of the kernel matrix with the values. -/
def potential (I : In K) (p a : Nat) : K := ∑ q ∈ range I.ns, ∑ b ∈ range I.kd, I.kern (I.dst p) (I.src q) a b * I.val (I.kd * q + b)

/-- `sched` consists of the steps of the threads `0 .. team - 1`, in some order. -/
def Schedule (I : In K) (nThread team : Nat) (sched : List ((Nat × Nat) × (Nat × Nat))) : Prop :=
  sched.Perm ((List.range team).flatMap (thread I nThread))

end spec

section proof
variable {K : Type} [CommRing K] {I : In K}

theorem list_sum_range (f : Nat → K) (n : Nat) : ((List.range n).map f).sum = ∑ i ∈ range n, f i := by
  induction n with
  | zero => rfl
  | succ n ih => rw [List.range_succ, List.map_append, List.sum_append, ih, sum_range_succ]; simp

theorem flat_sum {α β : Type} (f : β → K) (g : α → List β) (l : List α) : ((l.flatMap g).map f).sum = (l.map fun x => ((g x).map f).sum).sum := by
  induction l with
  | nil => rfl
  | cons x l ih => rw [List.flatMap_cons, List.map_append, List.sum_append, ih, List.map_cons, List.sum_cons]

/-- Every point is in one block. -/
theorem blocks_ind (V : K) (p s e : Nat) : ((blocks s e).map fun d => if d.1 ≤ p ∧ p < d.1 + d.2 then V else 0).sum = if s ≤ p ∧ p < e then V else 0 := by
  induction s using blocks.induct e with
  | case1 s h ih =>
    rw [blocks, if_pos h, List.map_cons, List.sum_cons, ih]
    dsimp only
    have hn : 0 < nptBlk := by unfold nptBlk; omega
    generalize nptBlk = nb at *
    by_cases h1 : s + nb > e
    · rw [if_pos h1]
      by_cases h2 : s ≤ p ∧ p < e
      · rw [if_pos (by omega), if_neg (by omega), if_pos h2, add_zero]
      · rw [if_neg (by omega), if_neg (by omega), if_neg h2, add_zero]
    · rw [if_neg h1]
      by_cases h2 : s ≤ p ∧ p < s + nb
      · rw [if_pos h2, if_neg (by omega), if_pos (by omega), add_zero]
      · rw [if_neg h2, zero_add]
        by_cases h3 : s + nb ≤ p ∧ p < e
        · rw [if_pos h3, if_pos (by omega)]
        · rw [if_neg h3, if_neg (by omega)]
  | case2 s h => rw [blocks, if_neg h, if_neg (by omega)]; rfl

/-- The blocks cover a sum. -/
theorem blocks_sum (kd : Nat) (g : Nat → K) (e s : Nat) : ((blocks s e).map fun x => ∑ c ∈ range (x.2 * kd), g (kd * x.1 + c)).sum = ∑ c ∈ range ((e - s) * kd), g (kd * s + c) := by
  induction s using blocks.induct e with
  | case1 s h ih =>
    rw [blocks, if_pos h, List.map_cons, List.sum_cons, ih]
    dsimp only
    have hn : 0 < nptBlk := by unfold nptBlk; omega
    generalize nptBlk = nb at *
    by_cases h1 : s + nb > e
    · rw [if_pos h1, show e - (s + nb) = 0 by omega, Nat.zero_mul, range_zero, sum_empty, add_zero]
    · rw [if_neg h1, show (e - s) * kd = nb * kd + (e - (s + nb)) * kd by rw [← Nat.add_mul]; congr 1; omega, sum_range_add]
      congr 1
      refine sum_congr rfl fun c _ => ?_
      congr 1
      ring
  | case2 s h => rw [blocks, if_neg h, show e - s = 0 by omega, Nat.zero_mul]; rfl

/-- What a step adds. -/
def gain (I : In K) (p a : Nat) (s : Nat × Nat) : K :=
  ∑ c ∈ range (s.2 * I.kd), (fun c => I.kern (I.dst p) (I.src (c / I.kd)) a (c % I.kd) * I.val c) (I.kd * s.1 + c)

theorem row_in {kd p a d n : Nat} (ha : a < kd) : (kd * d ≤ kd * p + a ∧ kd * p + a < kd * d + n * kd) ↔ d ≤ p ∧ p < d + n := by
  have e : kd * d + n * kd = kd * (d + n) := by ring
  rw [e]
  constructor
  · rintro ⟨h1, h2⟩
    constructor
    · by_contra hc
      have := Nat.mul_le_mul_left kd (show p + 1 ≤ d by omega)
      rw [Nat.mul_add] at this
      omega
    · exact Nat.lt_of_mul_lt_mul_left (lt_of_le_of_lt (Nat.le_add_right _ _) h2)
  · rintro ⟨h1, h2⟩
    have h3 := Nat.mul_le_mul_left kd h1
    have h4 := Nat.mul_le_mul_left kd (show p + 1 ≤ d + n by omega)
    rw [Nat.mul_add] at h4
    omega

theorem step_row {p a : Nat} (ha : a < I.kd) (D : Nat → K) (x : (Nat × Nat) × (Nat × Nat)) :
    step I D x (I.kd * p + a) = D (I.kd * p + a) + if x.1.1 ≤ p ∧ p < x.1.1 + x.1.2 then gain I p a x.2 else 0 := by
  unfold step
  by_cases h : x.1.1 ≤ p ∧ p < x.1.1 + x.1.2
  · rw [if_pos ((row_in ha).2 h), if_pos h]
    congr 1
    refine sum_congr rfl fun c _ => ?_
    have hk : 0 < I.kd := by omega
    have e : I.kd * p + a - I.kd * x.1.1 = I.kd * (p - x.1.1) + a := by
      have h1 := Nat.mul_le_mul_left I.kd h.1
      rw [Nat.mul_sub]; omega
    unfold kmat
    rw [e, Nat.mul_add_div hk, Nat.div_eq_of_lt ha, Nat.mul_add_mod, Nat.mod_eq_of_lt ha]
    dsimp only
    rw [Nat.mul_add_div hk, Nat.mul_add_mod, show x.1.1 + (p - x.1.1 + 0) = p by omega]
  · rw [if_neg (fun hc => h ((row_in ha).1 hc)), if_neg h, add_zero]

theorem run_row {p a : Nat} (ha : a < I.kd) (sched : List ((Nat × Nat) × (Nat × Nat))) : ∀ D : Nat → K,
    sched.foldl (step I) D (I.kd * p + a) = D (I.kd * p + a) + (sched.map fun x => if x.1.1 ≤ p ∧ p < x.1.1 + x.1.2 then gain I p a x.2 else 0).sum := by
  induction sched with
  | nil => intro D; simp
  | cons x l ih => intro D; rw [List.foldl_cons, ih, step_row ha, List.map_cons, List.sum_cons, add_assoc]

theorem gain_sum (p a : Nat) (hk : 0 < I.kd) : ((blocks 0 I.ns).map (gain I p a)).sum = potential I p a := by
  have := blocks_sum I.kd (fun c => I.kern (I.dst p) (I.src (c / I.kd)) a (c % I.kd) * I.val c) I.ns 0
  unfold gain
  rw [this]
  unfold potential
  rw [Nat.sub_zero]
  have key : ∀ n, ∑ c ∈ range (n * I.kd), I.kern (I.dst p) (I.src (c / I.kd)) a (c % I.kd) * I.val c =
      ∑ q ∈ range n, ∑ b ∈ range I.kd, I.kern (I.dst p) (I.src q) a b * I.val (I.kd * q + b) := by
    intro n
    induction n with
    | zero => simp
    | succ n ih =>
      rw [sum_range_succ, ← ih, Nat.add_mul, Nat.one_mul, sum_range_add]
      congr 1
      refine sum_congr rfl fun b hb => ?_
      have hb := mem_range.1 hb
      rw [show n * I.kd + b = I.kd * n + b by ring, Nat.mul_add_div hk, Nat.mul_add_mod, Nat.div_eq_of_lt hb, Nat.mod_eq_of_lt hb, Nat.add_zero]
  rw [← key I.ns]
  refine sum_congr rfl fun c _ => ?_
  rw [Nat.mul_zero, Nat.zero_add]

open Classical in
theorem thread_sum {nThread : Nat} (ht : 1 ≤ nThread) {tid : Nat} (h : tid < nThread) (p a : Nat) (hk : 0 < I.kd) : ∃ b, calcBlockSposLen I.nd nThread tid = some b ∧
    ((thread I nThread tid).map fun x => if x.1.1 ≤ p ∧ p < x.1.1 + x.1.2 then gain I p a x.2 else 0).sum = if b.Mem p then potential I p a else 0 := by
  obtain ⟨g, g1, -⟩ := C01_blocks_contiguous I.nd nThread (by omega) (by omega)
  have hb := g1 tid (by omega) (by omega)
  obtain ⟨a1, a2, a3⟩ := C01_block_in_range I.nd nThread tid (by omega) (by omega) (by omega) _ hb
  refine ⟨_, hb, ?_⟩
  unfold thread
  rw [hb]
  dsimp only
  rw [flat_sum]
  have e : ∀ d : Nat × Nat, (((blocks 0 I.ns).map fun s => (d, s)).map fun x => if x.1.1 ≤ p ∧ p < x.1.1 + x.1.2 then gain I p a x.2 else 0).sum =
      if d.1 ≤ p ∧ p < d.1 + d.2 then potential I p a else 0 := by
    intro d
    rw [List.map_map]
    by_cases hd : d.1 ≤ p ∧ p < d.1 + d.2
    · rw [if_pos hd, ← gain_sum p a hk]
      congr 1
      refine List.map_congr_left fun s _ => ?_
      exact if_pos hd
    · rw [if_neg hd]
      refine List.sum_eq_zero fun y hy => ?_
      obtain ⟨s, -, rfl⟩ := List.mem_map.1 hy
      exact if_neg hd
  simp only [e]
  rw [blocks_ind]
  unfold BlkRange.Mem
  by_cases hc : (g tid).spos ≤ (p : Int) ∧ (p : Int) < (g tid).spos + (g tid).len
  · rw [if_pos hc, if_pos (by omega)]
  · rw [if_neg hc, if_neg (by omega)]

open Classical in
theorem rows (D : Nat → K) {nThread team : Nat} (ht : 1 ≤ nThread) (hteam : team ≤ nThread) {sched : List ((Nat × Nat) × (Nat × Nat))} (hs : Schedule I nThread team sched)
    {p a : Nat} (hp : p < I.nd) (ha : a < I.kd) :
    run I sched D (I.kd * p + a) = if ∃ tid < team, ∃ b, calcBlockSposLen I.nd nThread tid = some b ∧ b.Mem p then potential I p a else 0 := by
  have hk : 0 < I.kd := by omega
  unfold run
  rw [run_row ha, (hs.map _).sum_eq, flat_sum, list_sum_range]
  have hr : I.kd * p + a < I.nd * I.kd := by
    have := Nat.mul_le_mul_left I.kd (show p + 1 ≤ I.nd by omega)
    rw [Nat.mul_add, Nat.mul_comm I.kd I.nd] at this
    omega
  rw [show clear I D (I.kd * p + a) = 0 from if_pos hr, zero_add]
  obtain ⟨i, ⟨i0, i1, ri, hi, hm⟩, hu⟩ := (C01_blocks_tile I.nd nThread (by omega) (by omega) p).1 ⟨by omega, by omega⟩
  have hval : ∀ tid ∈ range team, ((thread I nThread tid).map fun x => if x.1.1 ≤ p ∧ p < x.1.1 + x.1.2 then gain I p a x.2 else 0).sum =
      if tid = i.toNat then potential I p a else 0 := by
    intro tid htid
    have htid := mem_range.1 htid
    obtain ⟨b, hb, e⟩ := thread_sum (I := I) ht (by omega : tid < nThread) p a hk
    rw [e]
    refine if_congr ⟨fun hb' => ?_, fun e => ?_⟩ rfl rfl
    · have := hu tid ⟨by omega, by omega, b, hb, hb'⟩
      omega
    · have : (tid : Int) = i := by omega
      rw [this, hi] at hb
      cases hb
      exact hm
  rw [sum_congr rfl hval, sum_ite_eq']
  refine if_congr ?_ rfl rfl
  rw [mem_range]
  constructor
  · intro h
    exact ⟨i.toNat, h, ri, by rw [Int.toNat_of_nonneg i0]; exact hi, hm⟩
  · rintro ⟨tid, h1, b, h2, h3⟩
    have := hu tid ⟨by omega, by omega, b, h2, h3⟩
    omega

theorem blocks_mem (s e : Nat) : ∀ d ∈ blocks s e, s ≤ d.1 ∧ d.1 + d.2 ≤ e ∧ d.2 ≤ 256 := by
  induction s using blocks.induct e with
  | case1 s h ih =>
    rw [blocks, if_pos h]
    intro d hd
    rcases List.mem_cons.1 hd with rfl | hd
    · dsimp only
      unfold nptBlk
      by_cases h1 : s + 256 > e
      · rw [if_pos h1]; omega
      · rw [if_neg h1]; omega
    · have := ih d hd
      omega
  | case2 s h => rw [blocks, if_neg h]; intro d hd; simp at hd

/-- **C100** (memory).  The blocks of every step fit into the buffer of a thread (256 points in both directions), and their points exist. -/
theorem C100_bounds {nThread team : Nat} (hteam : team ≤ nThread) {sched : List ((Nat × Nat) × (Nat × Nat))} (hs : Schedule I nThread team sched)
    {x : (Nat × Nat) × (Nat × Nat)} (hx : x ∈ sched) : x.1.2 ≤ 256 ∧ x.2.2 ≤ 256 ∧ x.1.1 + x.1.2 ≤ I.nd ∧ x.2.1 + x.2.2 ≤ I.ns := by
  obtain ⟨tid, h1, h2⟩ := List.mem_flatMap.1 (hs.mem_iff.1 hx)
  have h1 := List.mem_range.1 h1
  obtain ⟨g, g1, -⟩ := C01_blocks_contiguous I.nd nThread (by omega) (by omega)
  have hb := g1 tid (by omega) (by omega)
  obtain ⟨a1, a2, a3⟩ := C01_block_in_range I.nd nThread tid (by omega) (by omega) (by omega) _ hb
  unfold thread at h2
  rw [hb] at h2
  obtain ⟨d, hd, h3⟩ := List.mem_flatMap.1 h2
  obtain ⟨s, hs, rfl⟩ := List.mem_map.1 h3
  have b1 := blocks_mem _ _ d hd
  have b2 := blocks_mem _ _ s hs
  dsimp only
  omega

/-- **C100** With a team of as many threads as the program expects, the result is the product of the kernel matrix with the values, for any order of the steps of the
threads, any number of threads and whatever was in the output before; nothing after the output is changed. -/
theorem C100_direct_nbody (D : Nat → K) {nThread : Nat} (ht : 1 ≤ nThread) {sched : List ((Nat × Nat) × (Nat × Nat))} (hs : Schedule I nThread nThread sched) :
    (∀ p < I.nd, ∀ a < I.kd, run I sched D (I.kd * p + a) = potential I p a) ∧ ∀ r, I.nd * I.kd ≤ r → run I sched D r = D r := by
  constructor
  · intro p hp a ha
    rw [rows D ht (le_refl _) hs hp ha, if_pos]
    obtain ⟨i, ⟨i0, i1, ri, hi, hm⟩, -⟩ := (C01_blocks_tile I.nd nThread (by omega) (by omega) p).1 ⟨by omega, by omega⟩
    exact ⟨i.toNat, by omega, ri, by rw [Int.toNat_of_nonneg i0]; exact hi, hm⟩
  · intro r hr
    have key : ∀ (l : List ((Nat × Nat) × (Nat × Nat))) (D : Nat → K), (∀ x ∈ l, x.1.1 + x.1.2 ≤ I.nd) → l.foldl (step I) D r = D r := by
      intro l
      induction l with
      | nil => intro D _; rfl
      | cons x l ih =>
        intro D hl
        rw [List.foldl_cons, ih _ fun y hy => hl y (List.mem_cons_of_mem _ hy)]
        unfold step
        refine if_neg ?_
        rintro ⟨-, h2⟩
        have h3 := Nat.mul_le_mul_left I.kd (hl x List.mem_cons_self)
        have e1 : I.kd * (x.1.1 + x.1.2) = I.kd * x.1.1 + x.1.2 * I.kd := by ring
        rw [e1, Nat.mul_comm I.kd I.nd] at h3
        omega
    unfold run
    rw [key sched _ fun x hx => (C100_bounds (le_refl _) hs hx).2.2.1]
    exact if_neg (by omega)

/-- **C100** (limit).  The program asks for the greatest number of threads and then opens a parallel region without asking for as many: if the team is smaller, the points
of the missing threads get zero. -/
theorem C100_small_team (D : Nat → K) {nThread team : Nat} (hteam : team < nThread) {sched : List ((Nat × Nat) × (Nat × Nat))} (hs : Schedule I nThread team sched)
    {tid : Nat} (h1 : team ≤ tid) (h2 : tid < nThread) {b : BlkRange} (hb : calcBlockSposLen I.nd nThread tid = some b) {p : Nat} (hp : b.Mem p) {a : Nat} (ha : a < I.kd) :
    run I sched D (I.kd * p + a) = 0 := by
  obtain ⟨a1, a2, a3⟩ := C01_block_in_range I.nd nThread tid (by omega) (by omega) (by omega) _ hb
  have hp' := hp
  unfold BlkRange.Mem at hp'
  rw [rows D (by omega) (by omega) hs (by omega) ha, if_neg]
  rintro ⟨t, t1, b', t2, t3⟩
  obtain ⟨i, -, hu⟩ := (C01_blocks_tile I.nd nThread (by omega) (by omega) p).1 ⟨by omega, by omega⟩
  have e1 := hu t ⟨by omega, by omega, b', t2, t3⟩
  have e2 := hu tid ⟨by omega, by omega, b, hb, hp⟩
  omega

end proof

/-! ## Non-vacuity -/

/-- Three target points, 300 source points (two blocks), two components. -/
def exIn : In ℚ := ⟨fun x y a b => x 0 * y 0 + a + 2 * b, 2, fun p _ => p, 3, fun q _ => q + 1, 300, fun c => c⟩

theorem exBlocks : blocks 0 300 = [(0, 256), (256, 44)] := by
  have e0 : blocks 512 300 = [] := by rw [blocks, if_neg (by omega)]
  have e : blocks 256 300 = [(256, 44)] := by
    rw [blocks, if_pos (by omega), show 256 + nptBlk = 512 from rfl, e0]
    rfl
  rw [blocks, if_pos (by omega), show 0 + nptBlk = 256 from rfl, e]
  rfl

/-- Two threads, the steps of the second before those of the first. -/
theorem exSchedule : Schedule exIn 2 2 (thread exIn 2 1 ++ thread exIn 2 0) := by
  unfold Schedule
  rw [show List.range 2 = [0, 1] from rfl, List.flatMap_cons, List.flatMap_cons, List.flatMap_nil, List.append_nil]
  exact List.perm_append_comm

example : 1 < (thread exIn 2 0).length ∧ ∀ D p, p < 3 → ∀ a < 2, run exIn (thread exIn 2 1 ++ thread exIn 2 0) D (2 * p + a) = potential exIn p a := by
  refine ⟨?_, fun D p hp a ha => (C100_direct_nbody D (by omega) exSchedule).1 p hp a ha⟩
  have e : calcBlockSposLen ((3 : Nat) : Int) ((2 : Nat) : Int) ((0 : Nat) : Int) = some ⟨0, 2⟩ := by decide
  unfold thread
  rw [show exIn.nd = 3 from rfl, e, show exIn.ns = 300 from rfl, exBlocks]
  dsimp only
  rw [show (0 : Int).toNat + (2 : Int).toNat = 2 from rfl, show (0 : Int).toNat = 0 from rfl, blocks, if_pos (by omega)]
  simp

/-- A team of one where two threads are expected: the last target point gets zero. -/
example (D : Nat → ℚ) : run exIn (thread exIn 2 0) D (2 * 2 + 1) = 0 := by
  refine C100_small_team (I := exIn) (nThread := 2) (team := 1) (tid := 1) D (by omega) ?_ (le_refl _) (by omega) (b := ⟨2, 1⟩) (by decide) (p := 2) (by unfold BlkRange.Mem; decide)
    (a := 1) (by decide)
  unfold Schedule
  rw [show List.range 1 = [0] from rfl, List.flatMap_cons, List.flatMap_nil, List.append_nil]

end H2Pack.NBody
