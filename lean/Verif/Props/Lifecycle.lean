import Verif.Proof.Lifecycle6

/-!
# C91: who owns the memory of a handle

`run (init dim T) cs` is any history of public calls on a new handle, `destroy` is `H2P_destroy`.  `live` is the set of blocks that are allocated; `destroy h = .ok h'` says that no
block is freed twice, none after the handle or its array is gone, and no index is out of range.
-/

namespace H2Pack.Life

theorem init_arr (dim T : Nat) (c : Con) : (init dim T).ptr (.arr c) = none := rfl

/-- Every history in the documented order (each call finds what it needs) is executed. -/
theorem C91_runs (dim T : Nat) (cs : List Call) (ho : ordered dim ⟨false, false, false⟩ [] false cs) : ∃ h, run (init dim T) cs = .ok h :=
  run_total cs (done := []) (per := false) ⟨(own_init dim T).toCore, (own_init dim T).self, by simp, by simp⟩ ho

/-- After any history, `H2P_destroy` frees every block exactly once if and only if no resource of the handle has been created twice. -/
theorem C91_exact (dim T : Nat) (cs : List Call) (h : Heap) (e : run (init dim T) cs = .ok h) (hz : zeroOk false cs = true) :
    (∃ h', destroy h = .ok h' ∧ h'.live = ∅) ↔ (made dim ⟨false, false, false⟩ cs).Nodup := by
  have := exact_run cs (own_init dim T) List.nodup_nil (by simp) e hz
  rw [List.nil_append] at this
  exact this

/-- A resource created twice: whatever else happens, memory stays allocated after `H2P_destroy`. -/
theorem C91_twice (dim T : Nat) (cs : List Call) (h h' : Heap) (e : run (init dim T) cs = .ok h) (hn : ¬ (made dim ⟨false, false, false⟩ cs).Nodup) (e' : destroy h = .ok h') :
    h'.live.Nonempty := by
  obtain ⟨b, hb⟩ := leak_run cs (own_init dim T).toCore List.nodup_nil (by simp) e (by rw [List.nil_append]; exact hn)
  exact ⟨b, (lost_destroy hb e').1⟩

theorem run_append {cs ds : List Call} {h h' : Heap} (e : run h (cs ++ ds) = .ok h') : ∃ u, run h cs = .ok u ∧ run u ds = .ok h' := by
  induction cs generalizing h with
  | nil => exact ⟨h, rfl, e⟩
  | cons c cs ih =>
    obtain ⟨u, e1, e2⟩ := foldlM_ok e
    obtain ⟨v, e3, e4⟩ := ih e2
    refine ⟨v, ?_, e4⟩
    unfold run at e3 ⊢
    rw [List.foldlM_cons, e1, Res.bind_ok]
    exact e3

theorem run_core {cs : List Call} {h h' : Heap} (H : Core h) (e : run h cs = .ok h') : Core h' :=
  foldlM_inv Core (fun _ _ _ _ hs e => by
    obtain ⟨_, E, _⟩ := exec_eff e
    exact E.core hs) H e

theorem run_keep {cs : List Call} {h h' : Heap} {f : Fld} (H : h.ptr (.one f) ≠ none) (e : run h cs = .ok h') : h'.ptr (.one f) ≠ none :=
  foldlM_inv (fun h => h.ptr (.one f) ≠ none) (fun _ _ _ _ hs e => by
    obtain ⟨_, E, _⟩ := exec_eff e
    exact E.keep hs) H e

/-- The excluded case: a product with zero vectors before the points are partitioned creates the two permutation buffers, which the partitioning then overwrites. -/
theorem C91_zero_leak (dim T : Nat) (pre mid post : List Call) (per : Bool) (c : Call) (hc : (∃ n, c = .partition n) ∨ ∃ n, c = .partitionPer n) (h h' : Heap)
    (e : run (init dim T) (pre ++ .matmul per 0 :: (mid ++ c :: post)) = .ok h) (e' : destroy h = .ok h') : h'.live.Nonempty := by
  obtain ⟨u1, e1, e⟩ := run_append e
  obtain ⟨u2, e2, e⟩ := foldlM_ok e
  obtain ⟨u3, e3, e⟩ := run_append (cs := mid) e
  obtain ⟨u4, e4, e⟩ := foldlM_ok e
  have H3 : Core u3 := by
    refine run_core ?_ e3
    obtain ⟨_, E, _⟩ := exec_eff e2
    exact E.core (run_core (own_init dim T).toCore e1)
  have hp : u3.ptr (.one .pmt_x) ≠ none := by
    refine run_keep ?_ e3
    obtain ⟨v, r1, r2⟩ := bind_inv e2
    rw [if_pos rfl] at r2
    simp only [Res.ok.injEq] at r2
    subst r2
    exact ops_set r1 (s := .one .pmt_x) (Or.inr ⟨_, rfl⟩) (by simp [Op.target])
  have : ∃ b, Lost b u4 := by
    rcases hc with ⟨n, rfl⟩ | ⟨n, rfl⟩
    · obtain ⟨v, r1, r2⟩ := bind_inv e4
      obtain ⟨b, hb⟩ := overwrite_ops H3 r1 (f := .pmt_x) (by simp [partOps]) hp
      refine ⟨b, ?_⟩
      simp only at r2
      split at r2
      · have hb' : Lost b { v with nNode := n } := hb
        exact lost_ops hb' r2
      · simp only [Res.ok.injEq] at r2; subst r2; exact hb
    · obtain ⟨v, r1, r2⟩ := bind_inv e4
      obtain ⟨b, hb⟩ := overwrite_ops H3 r1 (f := .pmt_x) (by simp [partOps]) hp
      refine ⟨b, ?_⟩
      simp only [Res.ok.injEq] at r2; subst r2; exact hb
  obtain ⟨b, hb⟩ := this
  exact ⟨b, (lost_destroy (lost_run hb e) e').1⟩

/-- The usual order of calls: executed, and nothing is left. -/
theorem C91_ordered (dim T : Nat) (cs : List Call) (ho : ordered dim ⟨false, false, false⟩ [] false cs) (hn : (made dim ⟨false, false, false⟩ cs).Nodup) (hz : zeroOk false cs = true) :
    ∃ h h', run (init dim T) cs = .ok h ∧ destroy h = .ok h' ∧ h'.live = ∅ := by
  obtain ⟨h, e⟩ := C91_runs dim T cs ho
  obtain ⟨h', e', hl⟩ := (C91_exact dim T cs h e hz).2 hn
  exact ⟨h, h', e, e', hl⟩

theorem zeroOk_true (cs : List Call) : zeroOk true cs = true := by
  induction cs with
  | nil => rfl
  | cons c cs ih => cases c <;> simp [zeroOk, ih]

set_option maxHeartbeats 2000000 in
theorem own_readFile (dim T n : Nat) (hss skel jit : Bool) : ∃ h, readFile dim T n hss skel jit = .ok h ∧ Own [.part, .mat, .pairs] h ∧ h.dim = dim ∧ h.mode = ⟨hss, false, false⟩ ∧
    ∀ k ∈ [Kind.part, .mat, .pairs], h.ptr (.one (rep k)) ≠ none := by
  obtain ⟨k, e, O⟩ := own_adds (own_init dim T) (ks := [.part, .mat, .pairs]) (by simp) (readOps n T hss skel jit)
    (by cases hss <;> cases skel <;> cases jit <;> simp [readOps, Op.pure]) (by cases hss <;> cases skel <;> cases jit <;> simp [readOps, Op.grp])
    (by cases hss <;> cases skel <;> cases jit <;> simp [readOps, Op.grp, kindOf, kindF, kindC]) n n
    (by
      intro c m p hm
      have : (m = n ∧ (c = .U ∨ c = .J ∨ c = .J_coord)) ∨ (m = T ∧ c = .tb) := by
        cases hss <;> cases skel <;> cases jit <;> (simp [readOps] at hm; tauto)
      rcases this with ⟨rfl, rfl | rfl | rfl⟩ | ⟨rfl, rfl⟩ <;> rfl)
    (fun c hc => absurd (init_arr dim T c) hc)
    (by cases hss <;> cases skel <;> cases jit <;> simp [readOps, Op.grp]) (by simp) (by simp)
  have hw : ∀ f, Op.one f ∈ readOps n T hss skel jit → k.ptr (.one f) ≠ none := fun f hf => set_ops e hf
  refine ⟨{ k with nNode := n, nUJ := n, mode := ⟨hss, false, false⟩ }, by unfold readFile; rw [e]; rfl, own_mode O _, (same_ops e).dim, rfl, ?_⟩
  intro x hx
  simp only [List.mem_cons, List.not_mem_nil, or_false] at hx
  rcases hx with rfl | rfl | rfl <;> exact hw _ (by cases hss <;> cases skel <;> cases jit <;> simp [readOps, rep])

/-- A handle read from a file: any further history. -/
theorem C91_file (dim T n : Nat) (hss skel jit : Bool) : ∃ h0, readFile dim T n hss skel jit = .ok h0 ∧ ∀ (cs : List Call) (h : Heap), run h0 cs = .ok h →
    ((∃ h', destroy h = .ok h' ∧ h'.live = ∅) ↔ ([Kind.part, .mat, .pairs] ++ made dim ⟨hss, false, false⟩ cs).Nodup) := by
  obtain ⟨h0, e0, O, hd, hm, hr⟩ := own_readFile dim T n hss skel jit
  refine ⟨h0, e0, fun cs h e => ?_⟩
  have := exact_run cs O (by decide) hr e (zeroOk_true cs)
  rw [hd, hm] at this
  exact this

theorem own_spd (dim T n : Nat) : ∃ h, spdHandle dim T n = .ok h ∧ Own [.part, .mat, .pairs] h ∧ h.dim = dim ∧ h.mode = ⟨true, false, false⟩ ∧
    ∀ k ∈ [Kind.part, .mat, .pairs], h.ptr (.one (rep k)) ≠ none := by
  obtain ⟨k, e, O⟩ := own_adds (own_init dim T) (ks := [.part, .mat, .pairs]) (by simp) (spdOps n T)
    (by simp [spdOps, Op.pure]) (by simp [spdOps, Op.grp]) (by simp [spdOps, Op.grp, kindOf, kindF, kindC]) n n
    (by
      intro c m p hm
      have : (m = n ∧ c = .U) ∨ (m = T ∧ c = .tb) := by
        simp [spdOps] at hm; tauto
      rcases this with ⟨rfl, rfl⟩ | ⟨rfl, rfl⟩ <;> rfl)
    (fun c hc => absurd (init_arr dim T c) hc)
    (by simp [spdOps, Op.grp]) (by simp) (by simp)
  have hw : ∀ f, Op.one f ∈ spdOps n T → k.ptr (.one f) ≠ none := fun f hf => set_ops e hf
  refine ⟨{ k with nNode := n, nUJ := n, mode := ⟨true, false, false⟩ }, by unfold spdHandle; rw [e]; rfl, own_mode O _, (same_ops e).dim, rfl, ?_⟩
  intro x hx
  simp only [List.mem_cons, List.not_mem_nil, or_false] at hx
  rcases hx with rfl | rfl | rfl <;> exact hw _ (by simp [spdOps, rep])

/-- The handle of the SPD approximation: any further history. -/
theorem C91_spd (dim T n : Nat) : ∃ h0, spdHandle dim T n = .ok h0 ∧ ∀ (cs : List Call) (h : Heap), run h0 cs = .ok h →
    ((∃ h', destroy h = .ok h' ∧ h'.live = ∅) ↔ ([Kind.part, .mat, .pairs] ++ made dim ⟨true, false, false⟩ cs).Nodup) := by
  obtain ⟨h0, e0, O, hd, hm, hr⟩ := own_spd dim T n
  refine ⟨h0, e0, fun cs h e => ?_⟩
  have := exact_run cs O (by decide) hr e (zeroOk_true cs)
  rw [hd, hm] at this
  exact this

/-- The usual program: box, partitioning, construction, products. -/
def usual : List Call := [.enclosingBox, .partition 7, .build true true, .matvec false, .matvec false, .matmul false 3, .matmul false 0]

/-- HSS with a factorization that stops early. -/
def factored : List Call := [.runHSS, .partition 3, .build true false, .lu (fun i => i == 0) (fun _ => true) (fun _ => true) (fun i => i != 2), .solve, .matmul false 2]

example : ordered 3 ⟨false, false, false⟩ [] false usual ∧ (made 3 ⟨false, false, false⟩ usual).Nodup ∧ zeroOk false usual = true := by
  refine ⟨?_, by decide, by decide⟩
  simp [usual, ordered, needs, isPer, isPartPer, makes, Mode.next]

example : ordered 3 ⟨false, false, false⟩ [] false factored ∧ (made 3 ⟨false, false, false⟩ factored).Nodup ∧ zeroOk false factored = true := by
  refine ⟨?_, by decide, by decide⟩
  simp [factored, ordered, needs, isPer, isPartPer, makes, Mode.next]

/-- A second construction on the same handle, as a user may do to change the kernel. -/
example : ordered 3 ⟨false, false, false⟩ [] false [.partition 7, .build true true, .build true true] ∧
    ¬ (made 3 ⟨false, false, false⟩ [.partition 7, .build true true, .build true true]).Nodup := by
  refine ⟨?_, by decide⟩
  simp [ordered, needs, isPer, isPartPer, makes, Mode.next]

/-- The HSS mode chosen after the partitioning: the construction reads a `NULL` array. -/
example : (match run (init 3 2) [.partition 3, .runHSS, .build true true] with | .ub => true | _ => false) = true := by decide +kernel

end H2Pack.Life
