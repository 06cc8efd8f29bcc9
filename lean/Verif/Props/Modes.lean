import Verif.Model.Modes
import Mathlib.Data.Fin.VecNotation
import Mathlib.Data.Fintype.Pi
import Mathlib.Data.Fintype.BigOperators
import Mathlib.Tactic.FinCases
import Mathlib.Tactic.Ring
import Mathlib.Tactic.Tauto

/-! # C92: the modes of a handle after any history of mode calls -/

namespace H2Pack.Modes

/-- An Ewald call comes before every HSS and RPY call: it is the first of all. -/
abbrev EwaldFirst (cs : List Call) : Prop := cs.head? = some .ewald

/-- State after a history: flags. -/
structure Inv (d : Nat) (cs : List Call) (h : Handle) : Prop where
  dim : h.ptDim = d
  hss : h.isHSS = if Call.hss ∈ cs then 1 else 0
  rpy : h.isRPY = if Call.rpy ∈ cs then 1 else 0
  ewald : h.isEwald = if Call.ewald ∈ cs ∧ Call.hss ∉ cs ∧ Call.rpy ∉ cs then 1 else 0
  xpt : h.xptDim = if Call.rpy ∈ cs ∨ EwaldFirst cs then d + 1 else d
  lat : h.lattices = if EwaldFirst cs ∧ d = 2 then lattices2 else if EwaldFirst cs ∧ d = 3 then lattices3 else []
  nlat : h.nLattice = if EwaldFirst cs ∧ d = 2 then 9 else if EwaldFirst cs ∧ d = 3 then 27 else 0
  child : h.maxChild = 2 ^ d
  nbr : h.maxNeighbor = 3 ^ d

theorem inv_run (d : Nat) (cs : List Call) : Inv d cs (run (init d) cs) := by
  induction cs using List.reverseRecOn with
  | nil =>
    refine ⟨rfl, rfl, rfl, rfl, ?_, ?_, ?_, ?_, ?_⟩
    · simp [run, init, EwaldFirst]
    · simp [run, init, EwaldFirst]
    · simp [run, init, EwaldFirst]
    · simp [run, init, Nat.one_shiftLeft]
    · simp only [run, init, List.foldl_nil]
      induction d with
      | zero => rfl
      | succ d ih => rw [List.range_succ, List.foldl_append, ih]; rfl
  | append_singleton cs c ih =>
    obtain ⟨h1, h2, h3, h4, h5, h6, h7, h8, h9⟩ := ih
    have hrun : run (init d) (cs ++ [c]) = exec (run (init d) cs) c := by simp [run]
    rw [hrun]
    generalize run (init d) cs = h at *
    have hE : EwaldFirst (cs ++ [c]) ↔ EwaldFirst cs ∨ (cs = [] ∧ c = .ewald) := by
      cases cs <;> simp [EwaldFirst]
    have hM : ∀ x, x ∈ cs ++ [c] ↔ x ∈ cs ∨ x = c := by simp
    have hnil : Call.hss ∉ cs → Call.rpy ∉ cs → cs = [] ∨ EwaldFirst cs := by
      intro a b
      cases cs with
      | nil => exact Or.inl rfl
      | cons x cs =>
        refine Or.inr ?_
        cases x with
        | hss => simp at a
        | rpy => simp at b
        | ewald => rfl
    cases c with
    | hss =>
      have hE' : EwaldFirst (cs ++ [Call.hss]) ↔ EwaldFirst cs := by rw [hE]; simp
      have hR : Call.rpy ∈ cs ++ [Call.hss] ↔ Call.rpy ∈ cs := by simp
      refine ⟨h1, ?_, ?_, ?_, ?_, ?_, ?_, h8, h9⟩
      · simp [exec]
      · simp only [exec, hR]; exact h3
      · simp [exec]
      · simp only [exec, hR, hE']; exact h5
      · simp only [exec, hE']; exact h6
      · simp only [exec, hE']; exact h7
    | rpy =>
      have hE' : EwaldFirst (cs ++ [Call.rpy]) ↔ EwaldFirst cs := by rw [hE]; simp
      have hR : Call.hss ∈ cs ++ [Call.rpy] ↔ Call.hss ∈ cs := by simp
      refine ⟨h1, ?_, ?_, ?_, ?_, ?_, ?_, h8, h9⟩
      · simp only [exec, hR]; exact h2
      · simp [exec]
      · simp [exec]
      · simp [exec, h1]
      · simp only [exec, hE']; exact h6
      · simp only [exec, hE']; exact h7
    | ewald =>
      have hH : Call.hss ∈ cs ++ [Call.ewald] ↔ Call.hss ∈ cs := by simp
      have hR : Call.rpy ∈ cs ++ [Call.ewald] ↔ Call.rpy ∈ cs := by simp
      by_cases hc : Call.hss ∈ cs ∨ Call.rpy ∈ cs
      · have hf : h.isHSS = 1 ∨ h.isRPY = 1 := by
          rcases hc with hc | hc
          · left; rw [h2, if_pos hc]
          · right; rw [h3, if_pos hc]
        have hE' : EwaldFirst (cs ++ [Call.ewald]) ↔ EwaldFirst cs := by
          rw [hE]
          constructor
          · rintro (h | ⟨rfl, _⟩)
            · exact h
            · simp at hc
          · exact Or.inl
        have hex : exec h .ewald = h := by simp only [exec]; rw [if_pos hf]
        rw [hex]
        refine ⟨h1, ?_, ?_, ?_, ?_, ?_, ?_, h8, h9⟩
        · simp only [hH]; exact h2
        · simp only [hR]; exact h3
        · rw [h4, if_neg (by tauto), if_neg (by rw [hH, hR]; tauto)]
        · simp only [hR, hE']; exact h5
        · simp only [hE']; exact h6
        · simp only [hE']; exact h7
      · rw [not_or] at hc
        have hf : ¬ (h.isHSS = 1 ∨ h.isRPY = 1) := by rw [h2, h3, if_neg hc.1, if_neg hc.2]; simp
        have hE' : EwaldFirst (cs ++ [Call.ewald]) := hE.2 (by rcases hnil hc.1 hc.2 with h | h <;> tauto)
        have h6' : h.ptDim ≠ 2 → h.ptDim ≠ 3 → h.lattices = [] := by
          rw [h1]; intro a b; rw [h6, if_neg (by tauto), if_neg (by tauto)]
        have h7' : h.ptDim ≠ 2 → h.ptDim ≠ 3 → h.nLattice = 0 := by
          rw [h1]; intro a b; rw [h7, if_neg (by tauto), if_neg (by tauto)]
        simp only [exec]
        rw [if_neg hf]
        by_cases d2 : d = 2
        · subst d2
          simp only [h1]
          refine ⟨rfl, ?_, ?_, ?_, ?_, ?_, ?_, h8, h9⟩ <;> simp [hH, hR, hc.1, hc.2, hE']
        · by_cases d3 : d = 3
          · subst d3
            simp only [h1]
            refine ⟨rfl, ?_, ?_, ?_, ?_, ?_, ?_, h8, h9⟩ <;> simp [hH, hR, hc.1, hc.2, hE']
          · have e2 : h.ptDim ≠ 2 := by rw [h1]; exact d2
            have e3 : h.ptDim ≠ 3 := by rw [h1]; exact d3
            simp only [if_neg e2, if_neg e3]
            refine ⟨h1, ?_, ?_, ?_, ?_, ?_, ?_, h8, h9⟩
            · simp [hH, hc.1]
            · simp [hR, hc.2]
            · simp [hH, hR, hc.1, hc.2]
            · simp [hE', h1]
            · rw [if_neg (fun h => d2 h.2), if_neg (fun h => d3 h.2)]; exact h6' e2 e3
            · rw [if_neg (fun h => d2 h.2), if_neg (fun h => d3 h.2)]; exact h7' e2 e3

/-- The flags after any history do not depend on the order of the calls; the Ewald mode is never on together with another one. -/
theorem C92_flags (d : Nat) (cs : List Call) :
    ((run (init d) cs).isHSS = 1 ↔ .hss ∈ cs) ∧ ((run (init d) cs).isRPY = 1 ↔ .rpy ∈ cs) ∧
    ((run (init d) cs).isEwald = 1 ↔ .ewald ∈ cs ∧ .hss ∉ cs ∧ .rpy ∉ cs) ∧
    ((run (init d) cs).isEwald = 1 → (run (init d) cs).isHSS = 0 ∧ (run (init d) cs).isRPY = 0) := by
  obtain ⟨h1, h2, h3, h4, h5, h6, h7, h8, h9⟩ := inv_run d cs
  refine ⟨by rw [h2]; split <;> simp_all, by rw [h3]; split <;> simp_all, by rw [h4]; split <;> simp_all, ?_⟩
  rw [h4, h2, h3]
  split
  · rename_i h; simp [h.2.1, h.2.2]
  · simp

/-- The coordinate arrays have an extra row exactly if the RPY kernel was chosen or the very first mode call was the Ewald one. -/
theorem C92_rows (d : Nat) (cs : List Call) : (run (init d) cs).xptDim = if .rpy ∈ cs ∨ cs.head? = some .ewald then d + 1 else d := (inv_run d cs).xpt

/-- Two histories with the same calls, and the same flags, that expect coordinate arrays of different sizes. -/
theorem C92_order_matters (d : Nat) : (run (init d) [.ewald, .hss]).isHSS = (run (init d) [.hss, .ewald]).isHSS ∧
    (run (init d) [.ewald, .hss]).isRPY = (run (init d) [.hss, .ewald]).isRPY ∧ (run (init d) [.ewald, .hss]).isEwald = (run (init d) [.hss, .ewald]).isEwald ∧
    (run (init d) [.ewald, .hss]).xptDim = d + 1 ∧ (run (init d) [.hss, .ewald]).xptDim = d := by
  refine ⟨?_, ?_, ?_, ?_, ?_⟩
  · simp [(inv_run d _).hss]
  · simp [(inv_run d _).rpy]
  · simp [(inv_run d _).ewald]
  · simp [C92_rows]
  · simp [C92_rows]

/-- In Ewald mode in two or three dimensions the table has every vector with entries -1, 0, 1 exactly once; opposite vectors are at mirrored places, so the zero vector is in the middle. -/
theorem C92_lattice (d : Nat) (cs : List Call) (hd : d = 2 ∨ d = 3) (he : (run (init d) cs).isEwald = 1) :
    (run (init d) cs).nLattice = 3 ^ d ∧ (run (init d) cs).lattices.length = 3 ^ d * d ∧
    (∀ v : Fin d → ℚ, (∀ k, v k = -1 ∨ v k = 0 ∨ v k = 1) →
      ∃! l, l < 3 ^ d ∧ ∀ k : Fin d, (run (init d) cs).lattices.getD (l * d + k) 0 = v k) ∧
    (∀ l < 3 ^ d, ∀ k < d, (run (init d) cs).lattices.getD (l * d + k) 0 = -(run (init d) cs).lattices.getD ((3 ^ d - 1 - l) * d + k) 0) := by
  obtain ⟨h1, h2, h3, h4, h5, h6, h7, h8, h9⟩ := inv_run d cs
  have hE : EwaldFirst cs := by
    have := (C92_flags d cs).2.2.1.1 he
    cases cs with
    | nil => simp at this
    | cons x cs =>
      cases x with
      | hss => simp at this
      | rpy => simp at this
      | ewald => rfl
  rcases hd with rfl | rfl
  · rw [h7, h6, if_pos ⟨hE, rfl⟩, if_pos ⟨hE, rfl⟩]
    refine ⟨rfl, rfl, fun v hv => ?_, by decide +kernel⟩
    have key : ∀ a b : Fin 3, ∃ l, (l < 3 ^ 2 ∧ lattices2.getD (l * 2) 0 = ![-1, 0, 1] a ∧ lattices2.getD (l * 2 + 1) 0 = ![-1, 0, 1] b) ∧
        ∀ m < 3 ^ 2, lattices2.getD (m * 2) 0 = ![-1, 0, 1] a → lattices2.getD (m * 2 + 1) 0 = ![-1, 0, 1] b → m = l := by
      intro a b
      refine ⟨a * 3 + b, ?_⟩
      revert a b
      decide +kernel
    have hx : ∀ k, ∃ a : Fin 3, v k = ![-1, 0, 1] a := by
      intro k
      rcases hv k with h | h | h
      · exact ⟨0, h⟩
      · exact ⟨1, h⟩
      · exact ⟨2, h⟩
    obtain ⟨a, ha⟩ := hx 0
    obtain ⟨b, hb⟩ := hx 1
    obtain ⟨l, ⟨hl, q1, q2⟩, hu⟩ := key a b
    refine ⟨l, ⟨hl, fun k => ?_⟩, fun m hm => ?_⟩
    · fin_cases k
      · exact q1.trans ha.symm
      · exact q2.trans hb.symm
    · exact hu m hm.1 ((hm.2 0).trans ha) ((hm.2 1).trans hb)
  · rw [h7, h6, if_neg (by simp), if_pos ⟨hE, rfl⟩, if_neg (by simp), if_pos ⟨hE, rfl⟩]
    refine ⟨rfl, rfl, fun v hv => ?_, by decide +kernel⟩
    have key : ∀ a b c : Fin 3, ∃ l, (l < 3 ^ 3 ∧ lattices3.getD (l * 3) 0 = ![-1, 0, 1] a ∧ lattices3.getD (l * 3 + 1) 0 = ![-1, 0, 1] b ∧
        lattices3.getD (l * 3 + 2) 0 = ![-1, 0, 1] c) ∧
        ∀ m < 3 ^ 3, lattices3.getD (m * 3) 0 = ![-1, 0, 1] a → lattices3.getD (m * 3 + 1) 0 = ![-1, 0, 1] b → lattices3.getD (m * 3 + 2) 0 = ![-1, 0, 1] c → m = l := by
      intro a b c
      refine ⟨(a * 3 + b) * 3 + c, ?_⟩
      revert a b c
      decide +kernel
    have hx : ∀ k, ∃ a : Fin 3, v k = ![-1, 0, 1] a := by
      intro k
      rcases hv k with h | h | h
      · exact ⟨0, h⟩
      · exact ⟨1, h⟩
      · exact ⟨2, h⟩
    obtain ⟨a, ha⟩ := hx 0
    obtain ⟨b, hb⟩ := hx 1
    obtain ⟨c, hc⟩ := hx 2
    obtain ⟨l, ⟨hl, q1, q2, q3⟩, hu⟩ := key a b c
    refine ⟨l, ⟨hl, fun k => ?_⟩, fun m hm => ?_⟩
    · fin_cases k
      · exact q1.trans ha.symm
      · exact q2.trans hb.symm
      · exact q3.trans hc.symm
    · exact hu m hm.1 ((hm.2 0).trans ha) ((hm.2 1).trans hb) ((hm.2 2).trans hc)

/-- In any other dimension the Ewald mode has no lattice vectors at all. -/
theorem C92_no_lattice (d : Nat) (cs : List Call) (h2 : d ≠ 2) (h3 : d ≠ 3) : (run (init d) cs).nLattice = 0 ∧ (run (init d) cs).lattices = [] := by
  obtain ⟨-, -, -, -, -, h6, h7, -, -⟩ := inv_run d cs
  rw [h6, h7, if_neg (fun h => h2 h.2), if_neg (fun h => h3 h.2), if_neg (fun h => h2 h.2), if_neg (fun h => h3 h.2)]
  exact ⟨rfl, rfl⟩

/-- The limits of the tree: `2^d` children and `3^d` neighbours of a box (itself included), and in Ewald mode in two or three dimensions one lattice vector for each of these. -/
theorem C92_limits (d : Nat) (cs : List Call) : (run (init d) cs).maxChild = 2 ^ d ∧ (run (init d) cs).maxNeighbor = 3 ^ d := ⟨(inv_run d cs).child, (inv_run d cs).nbr⟩

example : (run (init 3) [.ewald, .ewald]).isEwald = 1 := by decide
example : (run (init 2) [.rpy, .ewald, .hss]).isEwald = 0 ∧ (run (init 2) [.rpy, .ewald, .hss]).xptDim = 3 := by decide

end H2Pack.Modes
