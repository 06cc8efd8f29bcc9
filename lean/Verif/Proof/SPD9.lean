import Verif.Proof.SPD8
import Mathlib.LinearAlgebra.Matrix.PosDef
import Mathlib.Analysis.Matrix.PosDef

set_option linter.unusedSectionVars false

/-! # SPDHSS: what is known about the nodes during the construction -/

namespace H2Pack.SPD
open H2Pack.MV (Mat Rep WF kid off kid_mem Nested entry nested_zero)
open H2Pack.ULV (InRow fsub mulTL mulR)
open H2Pack.Part (Arr kids ClusterTree)
open Finset

theorem pd_iff {n : Nat} {g : Nat → Nat → ℝ} : (Matrix.of fun i j : Fin n => g i j).PosDef ↔
    (∀ i < n, ∀ j < n, g i j = g j i) ∧ ∀ c : Nat → ℝ, (∃ i < n, c i ≠ 0) → 0 < quad n g c := by
  rw [Matrix.posDef_iff_dotProduct_mulVec]
  have hq : ∀ c : Nat → ℝ, star (fun i : Fin n => c i) ⬝ᵥ Matrix.mulVec (Matrix.of fun i j : Fin n => g i j) (fun i : Fin n => c i) = quad n g c := by
    intro c
    unfold quad
    simp only [dotProduct, Matrix.mulVec, Matrix.of_apply, Pi.star_apply, star_trivial]
    rw [sum_range]
    refine sum_congr rfl fun i _ => ?_
    rw [mul_sum, sum_range]
    exact sum_congr rfl fun j _ => by ring
  constructor
  · rintro ⟨h1, h2⟩
    refine ⟨fun i hi j hj => ?_, fun c hc => ?_⟩
    · have := h1.apply ⟨j, hj⟩ ⟨i, hi⟩
      simpa using this
    · rw [← hq]
      apply h2
      obtain ⟨i, hi, hne⟩ := hc
      intro h0
      exact hne (congrFun h0 ⟨i, hi⟩)
  · rintro ⟨h1, h2⟩
    refine ⟨?_, fun x hx => ?_⟩
    · ext i j
      simp [Matrix.conjTranspose_apply, h1 j j.2 i i.2]
    · have e : x = fun i : Fin n => (fun k => if h : k < n then x ⟨k, h⟩ else 0) i.1 := by
        funext i; simp
      rw [e, hq fun k => if h : k < n then x ⟨k, h⟩ else 0]
      apply h2
      by_contra hcon
      push Not at hcon
      apply hx
      funext i
      have := hcon i i.2
      simpa using this

theorem bil_eq_quad (N : Nat) (A : Nat → Nat → ℝ) (x : Nat → ℝ) : bil N A x x = quad N A x := rfl

theorem PD_iff {N : Nat} {A : Nat → Nat → ℝ} : PD N A ↔ (Matrix.of fun i j : Fin N => A i j).PosDef := pd_iff.symm

/-! ## One more node -/

/-- The construction after one more node. -/
def Gh.set (g : Gh) (v : Nat) (U : Mat ℝ) (L X : Nat → Nat → ℝ) : Gh := ⟨Function.update g.U v U, Function.update g.L v L, Function.update g.X v X⟩

section
variable {R : Rep ℝ} {A : Nat → Nat → ℝ} {W : Nat → Nat → Nat → ℝ} {nvec : Nat} {Ty : Nat → Nat → Nat → ℝ}

theorem base_congr {g g' : Gh} {v : Nat} (hU : ∀ u ∈ kids R.arr v, g'.U u = g.U u) (hL : ∀ u ∈ kids R.arr v, g'.L u = g.L u) :
    (∀ k ≤ R.arr.nChild v, off (g'.rep R) v k = off (g.rep R) v k) ∧ g'.m R v = g.m R v ∧ g'.lo R v = g.lo R v ∧ g'.gp R A v = g.gp R A v := by
  have hkid : ∀ k, k < R.arr.nChild v → g'.U (kid R v k) = g.U (kid R v k) ∧ g'.L (kid R v k) = g.L (kid R v k) :=
    fun k hk => ⟨hU _ (kid_mem hk), hL _ (kid_mem hk)⟩
  have hoff : ∀ k, k ≤ R.arr.nChild v → off (g'.rep R) v k = off (g.rep R) v k := by
    intro k hk
    unfold off
    refine sum_congr rfl fun j hj => ?_
    rw [mem_range] at hj
    show (g'.U (kid R v j)).ncol = (g.U (kid R v j)).ncol
    rw [(hkid j (by omega)).1]
  have hm : g'.m R v = g.m R v := by
    unfold Gh.m
    rw [hoff _ (le_refl _)]
  have hlo : g'.lo R v = g.lo R v := by
    funext i r
    unfold Gh.lo
    by_cases h0 : R.arr.nChild v = 0
    · rw [if_pos h0, if_pos h0]
    · rw [if_neg h0, if_neg h0]
      refine sum_congr rfl fun k hk => ?_
      rw [mem_range] at hk
      rw [(hkid k hk).1, (hkid k hk).2, hoff k (by omega)]
  refine ⟨hoff, hm, hlo, ?_⟩
  funext i j
  unfold Gh.gp
  rw [hlo]
  have : (∃ k < R.arr.nChild v, (off (g'.rep R) v k ≤ i ∧ i < off (g'.rep R) v (k + 1)) ∧ off (g'.rep R) v k ≤ j ∧ j < off (g'.rep R) v (k + 1)) ↔
      ∃ k < R.arr.nChild v, (off (g.rep R) v k ≤ i ∧ i < off (g.rep R) v (k + 1)) ∧ off (g.rep R) v k ≤ j ∧ j < off (g.rep R) v (k + 1) := by
    refine exists_congr fun k => and_congr_right fun hk => ?_
    rw [hoff k (by omega), hoff (k + 1) (by omega)]
  simp only [this]

/-- The operator that compresses a node is in the working arrays. -/
def Comp (R : Rep ℝ) (g : Gh) (st : St) (v : Nat) : Prop :=
  ∃ (V : Mat ℝ) (ki : Nat → Nat → ℝ), st.V v = some V ∧ V.nrow = g.m R v ∧ V.ncol = (g.U v).ncol ∧
    (∀ a < V.ncol, ∀ i < g.m R v, g.X v a i = ∑ t ∈ range (g.m R v), V.e t a * ki t i) ∧
    (R.arr.nChild v = 0 → ∃ S, st.S v = some S ∧ ∀ (b : Nat → ℝ), ∀ t < g.m R v, fsub false S.e b t = ∑ i ∈ range (g.m R v), ki t i * b i) ∧
    (R.arr.nChild v ≠ 0 → st.Minv v = some ⟨g.m R v, g.m R v, ki⟩ ∧ ∀ i j, ki i j = ki j i)

/-- The basis of a node comes from the sampled matrix of its level: `Q` of the QR factorization of `ki * lo * T`, multiplied with `k`. -/
def Cap (P : Params) (R : Rep ℝ) (T : Nat → Nat → Nat → ℝ) (nvec : Nat) (g : Gh) (v : Nat) : Prop :=
  ∃ (k ki tmp : Nat → Nat → ℝ), (g.U v).ncol = (basisV P (g.m R v) nvec tmp).ncol ∧
    (∀ i < g.m R v, ∀ j < nvec, tmp i j = ∑ s ∈ range (g.m R v), ki i s * ∑ r ∈ range R.size, g.lo R v s r * T (R.arr.level v) r j) ∧
    (∀ i a, (g.U v).e i a = ∑ t ∈ range (g.m R v), k i t * (basisV P (g.m R v) nvec tmp).e t a) ∧
    (∀ a i, g.X v a i = ∑ t ∈ range (g.m R v), (basisV P (g.m R v) nvec tmp).e t a * ki t i) ∧
    ∀ i < g.m R v, ∀ j < g.m R v, ∑ t ∈ range (g.m R v), ki i t * k t j = if i = j then 1 else 0

/-- No parent has been handled. -/
def Top (R : Rep ℝ) (Q : Nat → Prop) (v : Nat) : Prop := ∀ p < R.arr.nNode, v ∈ kids R.arr p → ¬ Q p

/-- What is known when the nodes in `Q` have been handled. -/
structure NodeInv (P : Params) (R : Rep ℝ) (A : Nat → Nat → ℝ) (W : Nat → Nat → Nat → ℝ) (nvec : Nat) (T : Nat → Nat → Nat → ℝ) (g : Gh) (st : St) (Q : Nat → Prop) : Prop where
  node : ∀ v, Q v → v + 1 < R.arr.nNode
  down : ∀ v, Q v → ∀ c ∈ kids R.arr v, Q c
  ok : ∀ v, Q v → NodeOk R A g v
  U : ∀ v, Q v → st.U v = some (g.U v)
  comp : ∀ v, Q v → Comp R g st v
  W : ∀ v, Q v → R.minAdm ≤ R.arr.level v → Top R Q v → ∃ e, st.W v = some ⟨(g.U v).ncol, (R.U v).ncol, e⟩ ∧
    ∀ a < (g.U v).ncol, ∀ t < (R.U v).ncol, e a t = ∑ r ∈ range R.size, g.L v a r * W v r t
  yLeaf : ∀ v < R.arr.nNode, ¬ Q v → R.arr.nChild v = 0 → ∀ l < R.arr.level v, ∃ e, st.Y v l = some ⟨R.rowE v - R.rowS v, nvec, e⟩ ∧
    ∀ i < R.rowE v - R.rowS v, ∀ j < nvec, e i j = T (R.arr.level v - l) (R.rowS v + i) j
  yRest : ∀ v < R.arr.nNode, ¬ Q v → ∀ l < R.arr.maxLevel, R.arr.nChild v ≠ 0 ∨ R.arr.level v ≤ l → ∃ e, st.Y v l = some ⟨0, 0, e⟩
  yDone : ∀ v, Q v → Top R Q v → ∀ l, l + 1 < R.arr.level v → ∃ e, st.Y v l = some ⟨(g.U v).ncol, nvec, e⟩ ∧
    ∀ a < (g.U v).ncol, ∀ j < nvec, e a j = ∑ r ∈ range R.size, g.L v a r * T (R.arr.level v - (l + 1)) r j
  rank : ∀ v, Q v → ∃ d, (g.U v).ncol = vCols P.reltol (min (min (g.m R v) nvec) P.maxRank) d
  cap : ∀ v, Q v → Cap P R T nvec g v
  spd : st.spd = true

variable {P : Params} {g : Gh} {st : St} {Q : Nat → Prop}

/-- One more node. -/
theorem node_done (hwf : WF R) (h : NodeInv P R A W nvec Ty g st Q) {v : Nat} (hv : v + 1 < R.arr.nNode) (hQ : ¬ Q v) (hk : ∀ c ∈ kids R.arr v, Q c) (htop : Top R Q v)
    {V : Mat ℝ} {k ki : Nat → Nat → ℝ} (hVr : V.nrow = g.m R v) (hV0 : 0 < V.ncol) (hVm : V.ncol ≤ g.m R v) (hVk : ∃ d, V.ncol = vCols P.reltol (min (min (g.m R v) nvec) P.maxRank) d) (hO : Ortho (g.m R v) V.ncol V.e)
    (hg : ∀ i < g.m R v, ∀ j < g.m R v, g.gp R A v i j = ∑ t ∈ range (g.m R v), k i t * k j t)
    (hinv : ∀ i < g.m R v, ∀ j < g.m R v, ∑ t ∈ range (g.m R v), ki i t * k t j = if i = j then 1 else 0)
    {U : Mat ℝ} (hUr : U.nrow = g.m R v) (hUc : U.ncol = V.ncol) (hU : ∀ i a, U.e i a = ∑ t ∈ range (g.m R v), k i t * V.e t a)
    {st' : St} (sU : st'.U = Function.update st.U v (some U)) (sV : st'.V = Function.update st.V v (some V)) (sS : ∀ u, u ≠ v → st'.S u = st.S u)
    (sM : ∀ u, u ≠ v → st'.Minv u = st.Minv u)
    (hS : R.arr.nChild v = 0 → ∃ S, st'.S v = some S ∧ ∀ (b : Nat → ℝ), ∀ t < g.m R v, fsub false S.e b t = ∑ i ∈ range (g.m R v), ki t i * b i)
    (hM : R.arr.nChild v ≠ 0 → st'.Minv v = some ⟨g.m R v, g.m R v, ki⟩ ∧ ∀ i j, ki i j = ki j i)
    (sW : ∀ u, u ≠ v → u ∉ kids R.arr v → st'.W u = st.W u)
    (hW : R.minAdm ≤ R.arr.level v → ∃ e, st'.W v = some ⟨V.ncol, (R.U v).ncol, e⟩ ∧ ∀ a < V.ncol, ∀ t < (R.U v).ncol,
      e a t = ∑ i ∈ range (g.m R v), (∑ s ∈ range (g.m R v), V.e s a * ki s i) * ∑ r ∈ range R.size, g.lo R v i r * W v r t)
    (sY : ∀ u, u ≠ v → u ∉ kids R.arr v → st'.Y u = st.Y u) (hY : ∀ l, l + 1 < R.arr.level v → ∃ e, st'.Y v l = some ⟨V.ncol, nvec, e⟩ ∧ ∀ a < V.ncol, ∀ j < nvec,
      e a j = ∑ i ∈ range (g.m R v), (∑ s ∈ range (g.m R v), V.e s a * ki s i) * ∑ r ∈ range R.size, g.lo R v i r * Ty (R.arr.level v - (l + 1)) r j)
    {tmp : Nat → Nat → ℝ} (hVt : V = basisV P (g.m R v) nvec tmp)
    (htmp : ∀ i < g.m R v, ∀ j < nvec, tmp i j = ∑ s ∈ range (g.m R v), ki i s * ∑ r ∈ range R.size, g.lo R v s r * Ty (R.arr.level v) r j)
    (hs : st'.spd = true) :
    ∃ g' : Gh, (∀ u, u ≠ v → g'.U u = g.U u ∧ g'.L u = g.L u ∧ g'.X u = g.X u) ∧ NodeInv P R A W nvec Ty g' st' (fun u => Q u ∨ u = v) := by
  have T := hwf.tree
  have hvn : v < R.arr.nNode := by omega
  set X : Nat → Nat → ℝ := fun a i => ∑ t ∈ range (g.m R v), V.e t a * ki t i with hX
  set L : Nat → Nat → ℝ := fun a r => ∑ i ∈ range (g.m R v), X a i * g.lo R v i r with hL
  have hself : v ∉ kids R.arr v := fun h => by have := T.childLt v hvn v h; omega
  have hne : ∀ u ∈ kids R.arr v, u ≠ v := fun u hu e => hself (e ▸ hu)
  have same : ∀ u, u ≠ v → (g.set v U L X).U u = g.U u ∧ (g.set v U L X).L u = g.L u ∧ (g.set v U L X).X u = g.X u :=
    fun u hu => ⟨Function.update_of_ne hu _ _, Function.update_of_ne hu _ _, Function.update_of_ne hu _ _⟩
  have eU : (g.set v U L X).U v = U := Function.update_self _ _ _
  have eL : (g.set v U L X).L v = L := Function.update_self _ _ _
  have eX : (g.set v U L X).X v = X := Function.update_self _ _ _
  obtain ⟨_, em, el, eg⟩ := base_congr (R := R) (A := A) (g := g) (g' := g.set v U L X) (v := v) (fun u hu => (same u (hne u hu)).1) (fun u hu => (same u (hne u hu)).2.1)
  have old : ∀ u, Q u → NodeOk R A (g.set v U L X) u := by
    intro u hu
    have hu1 : u ≠ v := by rintro rfl; exact hQ hu
    have hun : u < R.arr.nNode := by have := h.node u hu; omega
    have hkn : ∀ c ∈ kids R.arr u, c ≠ v := by
      rintro c hc rfl
      exact htop u hun hc hu
    refine (h.ok u hu).congr ?_ ?_ (same u hu1).2.2
    · rintro w (rfl | hw)
      · exact (same _ hu1).1
      · exact (same w (hkn w hw)).1
    · rintro w (rfl | hw)
      · exact (same _ hu1).2.1
      · exact (same w (hkn w hw)).2.1
  have new : NodeOk R A (g.set v U L X) v := by
    refine nodeOk hwf hvn (fun c hc => old c (hk c hc)) ?_ ?_ ?_ ?_ ?_
    · rw [eU, em, hUr]
    · rw [eU, hUc]; exact hV0
    · rw [eU, hUr, hUc]; exact hVm
    · rw [eU, em, eg, eX, hUc]
      exact nodeLA hg hinv hO (fun i _ a _ => hU i a) (fun a _ i _ => rfl)
    · intro a r
      rw [eL, em, eX, el]
  have hbase : ∀ u, Q u → (g.set v U L X).m R u = g.m R u := by
    intro u hu
    have hun : u < R.arr.nNode := by have := h.node u hu; omega
    have hkn : ∀ c ∈ kids R.arr u, c ≠ v := by
      rintro c hc rfl
      exact htop u hun hc hu
    exact (base_congr (R := R) (A := A) (fun w hw => (same w (hkn w hw)).1) (fun w hw => (same w (hkn w hw)).2.1)).2.1
  have hlo' : ∀ u, Q u → (g.set v U L X).lo R u = g.lo R u := by
    intro u hu
    have hun : u < R.arr.nNode := by have := h.node u hu; omega
    have hkn : ∀ c ∈ kids R.arr u, c ≠ v := by
      rintro c hc rfl
      exact htop u hun hc hu
    exact (base_congr (R := R) (A := A) (fun w hw => (same w (hkn w hw)).1) (fun w hw => (same w (hkn w hw)).2.1)).2.2.1
  have hLF : ∀ u, u = v → ∀ a (F : Nat → ℝ), ∑ i ∈ range (g.m R v), (∑ s ∈ range (g.m R v), V.e s a * ki s i) * ∑ r ∈ range R.size, g.lo R v i r * F r = ∑ r ∈ range R.size, L a r * F r := by
    intro u _ a F
    have : ∀ r ∈ range R.size, L a r * F r = ∑ i ∈ range (g.m R v), X a i * (g.lo R v i r * F r) := by
      intro r _
      rw [hL, sum_mul]
      exact sum_congr rfl fun i _ => by ring
    rw [sum_congr rfl this, sum_comm]
    refine sum_congr rfl fun i _ => ?_
    rw [← mul_sum]
  refine ⟨g.set v U L X, same, ?_⟩
  constructor
  · rintro u (hu | rfl)
    · exact h.node u hu
    · exact hv
  · rintro u (hu | rfl) c hc
    · exact Or.inl (h.down u hu c hc)
    · exact Or.inl (hk c hc)
  · rintro u (hu | rfl)
    · exact old u hu
    · exact new
  · rintro u (hu | rfl)
    · have hu1 : u ≠ v := by rintro rfl; exact hQ hu
      rw [sU, Function.update_of_ne hu1, (same u hu1).1]; exact h.U u hu
    · rw [sU, Function.update_self, eU]
  · rintro u (hu | rfl)
    · have hu1 : u ≠ v := by rintro rfl; exact hQ hu
      obtain ⟨V', ki', a1, a2, a3, a4, a5, a6⟩ := h.comp u hu
      unfold Comp
      rw [hbase u hu, (same u hu1).1, (same u hu1).2.2, sS u hu1, sM u hu1]
      exact ⟨V', ki', by rw [sV, Function.update_of_ne hu1]; exact a1, a2, a3, a4, a5, a6⟩
    · unfold Comp
      rw [em, eU, eX]
      exact ⟨V, ki, by rw [sV, Function.update_self], hVr, hUc.symm, fun _ _ _ _ => rfl, hS, hM⟩
  · rintro u hu hl ht
    by_cases hu1 : u = v
    · subst hu1
      obtain ⟨e, he1, he2⟩ := hW hl
      rw [eU, eL, hUc]
      refine ⟨e, he1, fun a ha t ht => ?_⟩
      rw [he2 a ha t ht]
      exact hLF u rfl a fun r => W u r t
    · have hu' : Q u := hu.resolve_right hu1
      have hun : u < R.arr.nNode := by have := h.node u hu'; omega
      have hnk : u ∉ kids R.arr v := fun hc => ht v hvn hc (Or.inr rfl)
      rw [sW u hu1 hnk, (same u hu1).1, (same u hu1).2.1]
      exact h.W u hu' hl (fun p hp hc hq => ht p hp hc (Or.inl hq))
  · intro u hu hnq h0 l hl
    have hu1 : u ≠ v := fun e => hnq (Or.inr e)
    have hnk : u ∉ kids R.arr v := fun hc => hnq (Or.inl (hk u hc))
    rw [sY u hu1 hnk]
    exact h.yLeaf u hu (fun hq => hnq (Or.inl hq)) h0 l hl
  · intro u hu hnq l hl h0
    have hu1 : u ≠ v := fun e => hnq (Or.inr e)
    have hnk : u ∉ kids R.arr v := fun hc => hnq (Or.inl (hk u hc))
    rw [sY u hu1 hnk]
    exact h.yRest u hu (fun hq => hnq (Or.inl hq)) l hl h0
  · intro u hu ht l hl
    by_cases hu1 : u = v
    · subst hu1
      rw [eU, eL, hUc]
      obtain ⟨e, he1, he2⟩ := hY l hl
      refine ⟨e, he1, fun a ha j hj => ?_⟩
      rw [he2 a ha j hj]
      exact hLF u rfl a fun r => Ty (R.arr.level u - (l + 1)) r j
    · have hu' : Q u := hu.resolve_right hu1
      have hnk : u ∉ kids R.arr v := fun hc => ht v hvn hc (Or.inr rfl)
      rw [sY u hu1 hnk, (same u hu1).1, (same u hu1).2.1]
      exact h.yDone u hu' (fun p hp hc hq => ht p hp hc (Or.inl hq)) l hl
  · rintro u (hu | rfl)
    · have hu1 : u ≠ v := by rintro rfl; exact hQ hu
      rw [hbase u hu, (same u hu1).1]; exact h.rank u hu
    · rw [em, eU, hUc]; exact hVk
  · rintro u (hu | rfl)
    · have hu1 : u ≠ v := by rintro rfl; exact hQ hu
      unfold Cap
      rw [hbase u hu, hlo' u hu, (same u hu1).1, (same u hu1).2.2]
      exact h.cap u hu
    · unfold Cap
      rw [em, el, eU, eX]
      exact ⟨k, ki, tmp, by rw [hUc, hVt], htmp, fun i a => by rw [hU, hVt], fun a i => by rw [← hVt], hinv⟩
  · exact hs

end

end H2Pack.SPD
