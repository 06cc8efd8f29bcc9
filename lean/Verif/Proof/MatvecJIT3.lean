import Verif.Proof.MatvecJIT2
import Verif.Props.Matvec
import Verif.Props.Utils

/-! # The JIT matvec computes the same as the matvec with stored kernel blocks -/

set_option linter.unusedSectionVars false

namespace H2Pack.MV
open H2Pack.Part (Arr kids ClusterTree)
open Finset (range sum_congr mul_sum sum_mul sum_comm sum_add_distrib sum_range_succ mem_range)

section
variable {K : Type} [CommRing K]

/-- What the JIT mode needs: block sizes match, ranks are `krnl_dim` times the number of skeleton points, the
`krnl_bimv` routine meets its contract; without it every block row of one point fits into the 128 KB row block. -/
structure JIT.Ok (J : JIT K) : Prop where
  wf : WF J.aot
  simd : 0 < J.simd
  rankJ : ∀ v < J.R.arr.nNode, J.R.minAdm ≤ J.R.arr.level v → (J.R.U v).ncol = J.jn v * J.R.kdim
  bimv : ∀ f, J.bimv = some f → BimvSpec J.simd J.xdim J.R.kdim J.kern f
  smallB : J.bimv = none → ∀ i < J.R.adm.length, (J.aot.B i).ncol * J.R.kdim ≤ 16384
  smallD : J.bimv = none → ∀ i < J.R.arr.nLeaf + J.R.inadm.length, (J.aot.D i).ncol * J.R.kdim ≤ 16384

theorem interleaving_one {β : Type} (l : List β) : ∀ qs : Nat → List β, qs 0 = l → H2Pack.Utils.Interleaving 1 qs l := by
  induction l with
  | nil => intro qs h; exact .done qs (fun t ht => by rw [show t = 0 by omega]; exact h)
  | cons x l ih =>
    intro qs h
    exact .step qs 0 x l l (by omega) h (ih _ (by simp))

theorem transp_eq (m n : Nat) (src dst : Nat → K) {i j : Nat} (hi : i < n) (hj : j < m) : JIT.transp m n src dst (i * m + j) = src (j * n + i) := by
  unfold JIT.transp
  exact (H2Pack.Utils.C43_transpose 1 m n src dst n m (fun _ => 0) (le_refl _) (by intro i _; exact Nat.zero_lt_one) (le_refl _) _
    (interleaving_one _ _ rfl)).1 i hi j hj

theorem foldlM_sim {α σ τ : Type} (S : σ → τ → Prop) (f : σ → α → Res σ) (g : τ → α → τ) (L : List α)
    (h : ∀ x ∈ L, ∀ s t, S s t → ∃ s', f s x = .ok s' ∧ S s' (g t x)) (s : σ) (t : τ) (hs : S s t) :
    ∃ s', L.foldlM f s = .ok s' ∧ S s' (L.foldl g t) := by
  induction L generalizing s t with
  | nil => exact ⟨s, rfl, hs⟩
  | cons x L ih =>
    obtain ⟨s1, e1, h1⟩ := h x List.mem_cons_self s t hs
    obtain ⟨s2, e2, h2⟩ := ih (fun y hy => h y (List.mem_cons_of_mem _ hy)) s1 (g t x) h1
    exact ⟨s2, by rw [List.foldlM_cons, e1, Res.bind_ok, e2], by rw [List.foldl_cons]; exact h2⟩

theorem sched_sim {n nblk nT : Nat} {blk : Nat → Nat} {s : List (Nat × Nat)} (hc : Cuts n nblk blk) (hs : Sched nT nblk s)
    (S : (Loc → K) → (Loc → K) → Prop) (f : Nat → (Loc → K) → Nat → Res (Loc → K)) (g : Nat → (Loc → K) → Nat → (Loc → K))
    (h : ∀ t < nT, ∀ i < n, ∀ m m', S m m' → ∃ m1, f t m i = .ok m1 ∧ S m1 (g t m' i)) (m m' : Loc → K) (h0 : S m m') :
    ∃ m1, s.foldlM (fun mem tb => JIT.task blk (f tb.1) mem tb.2) m = .ok m1 ∧
      S m1 (s.foldl (fun mem tb => taskBlock blk (g tb.1) mem tb.2) m') := by
  apply foldlM_sim S _ _ s _ m m' h0
  intro x hx a b hab
  have hx1 := hs.2 x hx
  have hx2 : x.2 < nblk := List.mem_range.1 (hs.1.mem_iff.1 (List.mem_map.2 ⟨x, hx, rfl⟩))
  unfold JIT.task taskBlock
  apply foldlM_sim S _ _ _ _ a b hab
  intro y hy c d hcd
  rw [List.mem_range'_1] at hy
  exact h _ hx1 _ (cuts_lt hc hx2 (by omega)) c d hcd

/-! ## One call -/

theorem call_eval {J : JIT K} (hn : J.bimv = none) (hk : 0 < J.R.kdim) {fuel junk ncol : Nat} {p q : (Nat → K) × Nat × Nat}
    (hpos : 0 < ncol) (hsm : ncol * J.R.kdim ≤ 16384) (hf : p.2.2 < fuel)
    (xb0 xb1 : Nat → K) (ab0 ab1 : Nat → Loc ⊕ Nat) (ldi0 ldi1 ldo0 ldo1 : Nat) (xe0 xe1 : Nat → K) {ae0 ae1 : Nat → Loc ⊕ Nat} (ho : Outs ae0 ae1) (mem : Loc → K) :
    ∃ m, J.call fuel junk ncol p q xb0 xb1 ab0 ab1 ldi0 ldi1 ldo0 ldo1 xe0 xe1 ae0 ae1 mem = .ok m ∧
      ∀ l, m l = mem l + biD (J.block p q).nrow (J.block p q).ncol (J.block p q).e xe0 xe1 ae0 ae1 (.inl l) := by
  have hb : 0 < 16384 / ncol / J.R.kdim := by
    rw [Nat.div_div_eq_div_mul]
    exact Nat.div_pos hsm (Nat.mul_pos hpos hk)
  obtain ⟨m, e, hm⟩ := evalBimv_spec J.kern hk hb (n0 := p.2.2) (n1 := q.2.2) (point J.xdim p.1 p.2.1) (point J.xdim q.1 q.2.1) xe0 xe1 ho fuel 0
    (JIT.lift mem (J.junkM junk)) (by omega)
  refine ⟨m ∘ Sum.inl, ?_, fun l => ?_⟩
  · unfold JIT.call
    rw [hn]
    dsimp only
    rw [if_neg (by omega), e]
    rfl
  · show m (.inl l) = _
    rw [hm l]
    simp only [Nat.zero_mul, Nat.zero_add, Nat.sub_zero]
    rfl

theorem call_bimv {J : JIT K} (h : J.Ok) {f : Bimv K} (hf : J.bimv = some f) {fuel junk ncol : Nat} {p q : (Nat → K) × Nat × Nat}
    (xb0 xb1 : Nat → K) (ab0 ab1 : Nat → Loc ⊕ Nat) (ldi0 ldi1 ldo0 ldo1 : Nat) (xe0 xe1 : Nat → K) (ae0 ae1 : Nat → Loc ⊕ Nat) (mem : Loc → K) :
    ∃ m, J.call fuel junk ncol p q xb0 xb1 ab0 ab1 ldi0 ldi1 ldo0 ldo1 xe0 xe1 ae0 ae1 mem = .ok m ∧
      ∀ l, m l = mem l + kernD J.kern J.R.kdim p.2.2 q.2.2 (point J.xdim p.1 p.2.1) (point J.xdim q.1 q.2.1) xb0 xb1 ab0 ab1 ldi0 ldi1 ldo0 ldo1 (.inl l) := by
  refine ⟨_, by unfold JIT.call; rw [hf], fun l => ?_⟩
  show extBimv _ _ _ _ _ _ _ _ _ _ _ _ _ _ _ _ _ _ _ _ _ = _
  rw [extBimv_adds h.simd (h.bimv f hf)]
  rfl

theorem kmat_at (kern : (Nat → K) → (Nat → K) → Nat → Nat → K) {kd : Nat} (p0 p1 : Nat → Nat → K) {i a j b : Nat} (ha : a < kd) (hb : b < kd) :
    kmat kern kd p0 p1 (i * kd + a) (j * kd + b) = kern (p0 i) (p1 j) a b := by
  unfold kmat
  have hk : 0 < kd := by omega
  rw [Nat.mul_comm i, Nat.mul_comm j, Nat.mul_add_div hk, Nat.mul_add_div hk, Nat.mul_add_mod, Nat.mul_add_mod,
    Nat.div_eq_of_lt ha, Nat.div_eq_of_lt hb, Nat.mod_eq_of_lt ha, Nat.mod_eq_of_lt hb, Nat.add_zero, Nat.add_zero]

/-- A kernel bi-matvec in the transposed layout corresponds to the bi-matvec with the kernel matrix. -/
theorem kernD_eq {ι κ : Type} [DecidableEq ι] [DecidableEq κ] (kern : (Nat → K) → (Nat → K) → Nat → Nat → K) (kd n0 n1 : Nat) (p0 p1 : Nat → Nat → K)
    {xb0 xb1 xe0 xe1 : Nat → K} {ab0 ab1 : Nat → ι} {ae0 ae1 : Nat → κ} {ldi0 ldi1 ldo0 ldo1 : Nat} {l : ι} {l' : κ}
    (hx0 : ∀ b < kd, ∀ j < n1, xb0 (b * ldi0 + j) = xe0 (j * kd + b))
    (hx1 : ∀ a < kd, ∀ i < n0, (∃ c < kd, ∃ j < n1, l = ab1 (c * ldo1 + j)) → xb1 (a * ldi1 + i) = xe1 (i * kd + a))
    (h0 : ∀ a < kd, ∀ i < n0, l = ab0 (a * ldo0 + i) ↔ l' = ae0 (i * kd + a))
    (h1 : ∀ b < kd, ∀ j < n1, l = ab1 (b * ldo1 + j) ↔ l' = ae1 (j * kd + b)) :
    kernD kern kd n0 n1 p0 p1 xb0 xb1 ab0 ab1 ldi0 ldi1 ldo0 ldo1 l = biD (n0 * kd) (n1 * kd) (kmat kern kd p0 p1) xe0 xe1 ae0 ae1 l' := by
  unfold kernD biD
  rw [sum_rows n0 kd, sum_rows n1 kd]
  congr 1
  · rw [sum_comm]
    apply sum_congr rfl; intro i hi
    apply sum_congr rfl; intro a ha
    rw [mem_range] at hi ha
    by_cases e : l = ab0 (a * ldo0 + i)
    · rw [if_pos e, if_pos ((h0 a ha i hi).1 e), sum_rows n1 kd, sum_comm]
      apply sum_congr rfl; intro j hj
      apply sum_congr rfl; intro b hb
      rw [mem_range] at hj hb
      rw [hx0 b hb j hj, kmat_at kern p0 p1 ha hb]
    · rw [if_neg e, if_neg (fun e' => e ((h0 a ha i hi).2 e'))]
  · rw [sum_comm]
    apply sum_congr rfl; intro j hj
    apply sum_congr rfl; intro b hb
    rw [mem_range] at hj hb
    by_cases e : l = ab1 (b * ldo1 + j)
    · rw [if_pos e, if_pos ((h1 b hb j hj).1 e), sum_rows n0 kd, sum_comm]
      apply sum_congr rfl; intro i hi
      apply sum_congr rfl; intro a ha
      rw [mem_range] at hi ha
      rw [hx1 a ha i hi ⟨b, hb, j, hj, e⟩, kmat_at kern p0 p1 ha hb]
    · rw [if_neg e, if_neg (fun e' => e ((h1 b hb j hj).2 e'))]

/-! ## Corresponding memory cells -/

/-- Transposed layout: cell of the JIT run, cell of the AOT run.  `PV`: nodes whose `y1` is compared. -/
inductive RelT (J : JIT K) (nT : Nat) (PV : Nat → Prop) : Loc → Loc → Prop
  | y1 (v t i a : Nat) : PV v → t < nT → i < J.jn v → a < J.R.kdim →
      RelT J nT PV (.y1 v (t * (J.jn v * J.R.kdim) + (a * J.jn v + i))) (.y1 v (t * (J.jn v * J.R.kdim) + (i * J.R.kdim + a)))
  | ty (t i a : Nat) : t < nT → i < J.R.nPoint → a < J.R.kdim → RelT J nT PV (.ty t (a * J.R.nPoint + i)) (.ty t (i * J.R.kdim + a))
  | y (r : Nat) : RelT J nT PV (.y r) (.y r)

theorem RelT.iff {J : JIT K} {nT : Nat} {PV : Nat → Prop} {x y x' y' : Loc} (h : RelT J nT PV x y) (h' : RelT J nT PV x' y') :
    x = x' ↔ y = y' := by
  cases h with
  | y1 v t i a hv ht hi ha =>
    cases h' with
    | y1 v' t' i' a' hv' ht' hi' ha' =>
      simp only [Loc.y1.injEq]
      constructor
      · rintro ⟨rfl, e⟩
        have b1 : a * J.jn v + i < J.jn v * J.R.kdim := by rw [Nat.mul_comm (J.jn v)]; exact idx_lt ha hi
        have b2 : a' * J.jn v + i' < J.jn v * J.R.kdim := by rw [Nat.mul_comm (J.jn v)]; exact idx_lt ha' hi'
        obtain ⟨rfl, e2⟩ := mul_add_inj b1 b2 e
        obtain ⟨rfl, rfl⟩ := mul_add_inj hi hi' e2
        exact ⟨rfl, rfl⟩
      · rintro ⟨rfl, e⟩
        obtain ⟨rfl, e2⟩ := mul_add_inj (idx_lt hi ha) (idx_lt hi' ha') e
        obtain ⟨rfl, rfl⟩ := mul_add_inj ha ha' e2
        exact ⟨rfl, rfl⟩
    | ty => simp
    | y => simp
  | ty t i a ht hi ha =>
    cases h' with
    | y1 => simp
    | ty t' i' a' ht' hi' ha' =>
      simp only [Loc.ty.injEq]
      constructor
      · rintro ⟨rfl, e⟩
        obtain ⟨rfl, rfl⟩ := mul_add_inj hi hi' e
        exact ⟨rfl, rfl⟩
      · rintro ⟨rfl, e⟩
        obtain ⟨rfl, rfl⟩ := mul_add_inj ha ha' e
        exact ⟨rfl, rfl⟩
    | y => simp
  | y r =>
    cases h' with
    | y1 => simp
    | ty => simp
    | y r' => simp

/-- Corresponding cells: the same cell when `krnl_eval` is used. -/
def Rel (J : JIT K) (nT : Nat) (PV : Nat → Prop) (a b : Loc) : Prop :=
  match J.bimv with
  | none => a = b
  | some _ => RelT J nT PV a b

def Sim (J : JIT K) (nT : Nat) (PV : Nat → Prop) (m m' : Loc → K) : Prop := ∀ a b, Rel J nT PV a b → m a = m' b

def LayX (J : JIT K) (x x' : Nat → K) : Prop :=
  match J.bimv with
  | none => x = x'
  | some _ => ∀ a < J.R.kdim, ∀ i < J.R.nPoint, x (a * J.R.nPoint + i) = x' (i * J.R.kdim + a)

def LayY (J : JIT K) (y y' : Y0 K) : Prop :=
  match J.bimv with
  | none => y = y'
  | some _ => ∀ v < J.R.arr.nNode, J.R.minAdm ≤ J.R.arr.level v → ∀ a < J.R.kdim, ∀ i < J.jn v, (y v).2 (a * J.jn v + i) = (y' v).2 (i * J.R.kdim + a)

theorem Outs.inl {a0 a1 : Nat → Loc} : Outs (fun k => (Sum.inl (a0 k) : Loc ⊕ Nat)) (fun k => .inl (a1 k)) :=
  ⟨fun i => ⟨a0 i, rfl⟩, fun j => .inl ⟨a1 j, rfl⟩⟩

theorem biD_inl (m n : Nat) (a : Nat → Nat → K) (x0 x1 : Nat → K) (a0 a1 : Nat → Loc) (l : Loc) :
    biD m n a x0 x1 (fun k => (Sum.inl (a0 k) : Loc ⊕ Nat)) (fun k => .inl (a1 k)) (.inl l) = biD m n a x0 x1 a0 a1 l := by
  unfold biD; simp

/-- The call for one off-diagonal block, in both variants. -/
theorem call_sim {J : JIT K} (h : J.Ok) {nT : Nat} {PV : Nat → Prop} {fuel junk : Nat} {p q : (Nat → K) × Nat × Nat}
    {xb0 xb1 xe0 xe1 z0 z1 : Nat → K} {ab0 ab1 ae0 ae1 c0 c1 : Nat → Loc} {ldi0 ldi1 ldo0 ldo1 : Nat} 
    (hev : J.bimv = none → 0 < q.2.2 * J.R.kdim ∧ q.2.2 * J.R.kdim * J.R.kdim ≤ 16384 ∧ p.2.2 < fuel ∧ xe0 = z0 ∧ xe1 = z1 ∧ ae0 = c0 ∧ ae1 = c1)
    (hbi : ∀ f, J.bimv = some f →
      (∀ b < J.R.kdim, ∀ j < q.2.2, xb0 (b * ldi0 + j) = z0 (j * J.R.kdim + b)) ∧
      (∀ a < J.R.kdim, ∀ i < p.2.2, xb1 (a * ldi1 + i) = z1 (i * J.R.kdim + a)) ∧
      (∀ a < J.R.kdim, ∀ i < p.2.2, RelT J nT PV (ab0 (a * ldo0 + i)) (c0 (i * J.R.kdim + a))) ∧
      (∀ b < J.R.kdim, ∀ j < q.2.2, RelT J nT PV (ab1 (b * ldo1 + j)) (c1 (j * J.R.kdim + b))))
    {m m' : Loc → K} (hS : Sim J nT PV m m') :
    ∃ m1, J.call fuel junk (q.2.2 * J.R.kdim) p q xb0 xb1 (fun k => .inl (ab0 k)) (fun k => .inl (ab1 k)) ldi0 ldi1 ldo0 ldo1
      xe0 xe1 (fun k => .inl (ae0 k)) (fun k => .inl (ae1 k)) m = .ok m1 ∧
      Sim J nT PV m1 (biGemv (J.block p q).nrow (J.block p q).ncol (J.block p q).e z0 z1 c0 c1 m') := by
  cases hb : J.bimv with
  | none =>
    obtain ⟨e1, e2, e3, rfl, rfl, rfl, rfl⟩ := hev hb
    obtain ⟨m1, c, hm⟩ := call_eval hb h.wf.kdim (junk := junk) e1 e2 e3 xb0 xb1 (fun k => .inl (ab0 k)) (fun k => .inl (ab1 k)) ldi0 ldi1 ldo0 ldo1 xe0 xe1
      (Outs.inl (a0 := ae0) (a1 := ae1)) m (q := q)
    refine ⟨m1, c, fun a b hab => ?_⟩
    have hab' : a = b := by unfold Rel at hab; rw [hb] at hab; exact hab
    subst hab'
    rw [hm, biGemv_adds, biD_inl, hS a a (by unfold Rel; rw [hb])]
  | some f =>
    obtain ⟨e1, e2, e3, e4⟩ := hbi f hb
    obtain ⟨m1, c, hm⟩ := call_bimv h hb (fuel := fuel) (junk := junk) (ncol := q.2.2 * J.R.kdim) (p := p) (q := q) xb0 xb1
      (fun k => .inl (ab0 k)) (fun k => .inl (ab1 k)) ldi0 ldi1 ldo0 ldo1 xe0 xe1 (fun k => .inl (ae0 k)) (fun k => .inl (ae1 k)) m
    refine ⟨m1, c, fun a b hab => ?_⟩
    have hab' : RelT J nT PV a b := by unfold Rel at hab; rw [hb] at hab; exact hab
    rw [hm, biGemv_adds, hS a b hab]
    congr 1
    apply kernD_eq
    · exact e1
    · intro a ha i hi _; exact e2 a ha i hi
    · intro a ha i hi
      rw [Sum.inl.injEq]
      exact RelT.iff hab' (e3 a ha i hi)
    · intro b hb j hj
      rw [Sum.inl.injEq]
      exact RelT.iff hab' (e4 b hb j hj)

/-! ## One pair, one diagonal block -/

/-- Nodes with a `y1`. -/
def PVm (J : JIT K) (v : Nat) : Prop := v < J.R.arr.nNode ∧ J.R.minAdm ≤ J.R.arr.level v ∧ J.R.mark v ≠ 0

theorem pt_lt {J : JIT K} (h : J.Ok) {v : Nat} (hv : v < J.R.arr.nNode) {i : Nat} (hi : i < J.npt v) : J.R.arr.ptS v + i < J.R.nPoint := by
  have h1 := h.wf.tree.clusterLt v hv
  have h2 := h.wf.tree.clusterLe v hv
  have e : J.aot.arr = J.R.arr := rfl
  have e2 : J.aot.nPoint = J.R.nPoint := rfl
  rw [e] at h1 h2
  rw [e2] at h1
  unfold JIT.npt at hi
  omega

theorem relT_y1 {J : JIT K} (h : J.Ok) (E : Env K) {v t i a : Nat} (hv : PVm J v) (ht : t < E.nThread) (hi : i < J.jn v) (ha : a < J.R.kdim) :
    RelT J E.nThread (PVm J) (.y1 v (t * y1ncol J.R E v + (a * J.jn v + i))) (.y1 v (t * y1ncol J.aot E v + (i * J.R.kdim + a))) := by
  have e1 : y1ncol J.R E v = J.jn v * J.R.kdim := by rw [y1ncol_marked hv.2.2, h.rankJ v hv.1 hv.2.1]
  have e2 : y1ncol J.aot E v = y1ncol J.R E v := rfl
  rw [e2, e1]
  exact .y1 v t i a hv ht hi ha

theorem relT_ty {J : JIT K} (h : J.Ok) {nT : Nat} {PV : Nat → Prop} {v t i a : Nat} (hv : v < J.R.arr.nNode) (ht : t < nT) (hi : i < J.npt v)
    (ha : a < J.R.kdim) : RelT J nT PV (.ty t (J.R.arr.ptS v + (a * J.R.nPoint + i))) (.ty t (J.aot.rowS v + (i * J.R.kdim + a))) := by
  have e1 : J.R.arr.ptS v + (a * J.R.nPoint + i) = a * J.R.nPoint + (J.R.arr.ptS v + i) := by omega
  have e2 : J.aot.rowS v + (i * J.R.kdim + a) = (J.R.arr.ptS v + i) * J.R.kdim + a := by
    show J.R.kdim * J.R.arr.ptS v + (i * J.R.kdim + a) = _
    ring
  rw [e1, e2]
  exact .ty t _ a ht (pt_lt h hv hi) ha

theorem layX_pt {J : JIT K} (h : J.Ok) {x x' : Nat → K} (hx : ∀ a < J.R.kdim, ∀ i < J.R.nPoint, x (a * J.R.nPoint + i) = x' (i * J.R.kdim + a))
    {v i a : Nat} (hv : v < J.R.arr.nNode) (hi : i < J.npt v) (ha : a < J.R.kdim) :
    x (J.R.arr.ptS v + (a * J.R.nPoint + i)) = x' (J.aot.rowS v + (i * J.R.kdim + a)) := by
  have e1 : J.R.arr.ptS v + (a * J.R.nPoint + i) = a * J.R.nPoint + (J.R.arr.ptS v + i) := by omega
  have e2 : J.aot.rowS v + (i * J.R.kdim + a) = (J.R.arr.ptS v + i) * J.R.kdim + a := by
    show J.R.kdim * J.R.arr.ptS v + (i * J.R.kdim + a) = _
    ring
  rw [e1, e2]
  exact hx a ha _ (pt_lt h hv hi)

/-- Enough fuel for every call. -/
def FuelOk (J : JIT K) (fuel : Nat) : Prop := (∀ v < J.R.arr.nNode, J.jn v < fuel) ∧ ∀ v < J.R.arr.nNode, J.npt v < fuel

theorem npt_pos {J : JIT K} (v : Nat) : 0 < J.npt v := by unfold JIT.npt; omega

theorem intmd_sim {J : JIT K} (h : J.Ok) (E : Env K) {fuel : Nat} (hfu : FuelOk J fuel) {x x' : Nat → K} (hx : LayX J x x') {y y' : Y0 K}
    (hy : LayY J y y') {t : Nat} (ht : t < E.nThread) {i : Nat} (hi : i < J.R.adm.length) {m m' : Loc → K}
    (hS : Sim J E.nThread (PVm J) m m') :
    ∃ m1, J.intmdPair E x y fuel t m i = .ok m1 ∧ Sim J E.nThread (PVm J) m1 (intmdPair J.aot E x' y' t m' i) := by
  have hmem := List.getElem_mem hi
  have hn := h.wf.admNode _ hmem
  have hmk := h.wf.marked _ hmem
  have hlv := h.wf.admLevel _ hmem
  have hk := h.wf.kdim
  have hsm := fun e => h.smallB e i hi
  have hkd : J.aot.kdim = J.R.kdim := rfl
  have harr : J.aot.arr = J.R.arr := rfl
  have hmkk : J.aot.mark = J.R.mark := rfl
  have hmin : J.aot.minAdm = J.R.minAdm := rfl
  have hpair : J.aot.adm[i]'hi = J.R.adm[i] := rfl
  have hg : J.R.adm.getD i (0, 0) = J.R.adm[i] := getD_adm hi
  have hga : J.aot.adm.getD i (0, 0) = J.R.adm[i] := getD_adm hi
  have hB : J.aot.B i = J.block (J.sidePts J.R.adm[i].1 J.R.adm[i].2) (J.sidePts J.R.adm[i].2 J.R.adm[i].1) := by
    show J.block (J.sidePts (J.R.adm.getD i (0, 0)).1 (J.R.adm.getD i (0, 0)).2) (J.sidePts (J.R.adm.getD i (0, 0)).2 (J.R.adm.getD i (0, 0)).1) = _
    rw [hg]
  rw [harr] at hn hmk hlv
  rw [hmkk] at hmk
  rw [hmin] at hlv
  rw [hkd] at hk
  rw [hB] at hsm
  unfold JIT.intmdPair intmdPair
  dsimp only
  rw [hg, hga, hB, harr]
  generalize J.R.adm[i] = pr at *
  obtain ⟨n0, n1⟩ := pr
  dsimp only at hn hmk hlv hsm ⊢
  have jpos : ∀ v, v < J.R.arr.nNode → J.R.minAdm ≤ J.R.arr.level v → 0 < J.jn v := by
    intro v hv hl
    have := h.wf.rank v hv hl
    have e : (J.aot.U v).ncol = J.jn v * J.R.kdim := h.rankJ v hv hl
    rw [e] at this
    exact Nat.pos_of_mul_pos_right this
  have hdiv : ∀ a, a * J.R.kdim / J.R.kdim = a := fun a => Nat.mul_div_cancel a hk
  rcases Nat.lt_trichotomy (J.R.arr.level n0) (J.R.arr.level n1) with hl | hl | hl
  · -- node0 on a higher level
    have s0 : J.sidePts n0 n1 = J.cPts n0 := by unfold JIT.sidePts; rw [if_neg (by omega)]
    have s1 : J.sidePts n1 n0 = J.jPts n1 := by unfold JIT.sidePts; rw [if_pos (by omega)]
    rw [s0, s1] at hsm ⊢
    have hq : (J.block (J.cPts n0) (J.jPts n1)).ncol = (J.jPts n1).2.2 * J.R.kdim := rfl
    have hpos : 0 < (J.jPts n1).2.2 * J.R.kdim := Nat.mul_pos (jpos n1 hn.2 (by omega)) hk
    rw [if_neg (show ¬ ((J.block (J.cPts n0) (J.jPts n1)).ncol = 0 ∨ J.R.kdim = 0) by rw [hq]; omega), if_neg (show ¬ J.R.arr.level n0 = J.R.arr.level n1 by omega), if_neg (show ¬ J.R.arr.level n0 > J.R.arr.level n1 by omega),
      if_neg (show ¬ J.R.arr.level n0 = J.R.arr.level n1 by omega), if_neg (show ¬ J.R.arr.level n1 < J.R.arr.level n0 by omega)]
    rw [hq]
    have pv1 : PVm J n1 := ⟨hn.2, by omega, hmk.2 (by omega)⟩
    apply call_sim h _ _ hS
    · intro e
      have hx' : x = x' := by unfold LayX at hx; rw [e] at hx; exact hx
      have hy' : y = y' := by unfold LayY at hy; rw [e] at hy; exact hy
      refine ⟨hpos, hsm e, hfu.2 n0 hn.1, by rw [hy'], by rw [hx']; rfl, rfl, rfl⟩
    · intro f e
      have hx' : ∀ a < J.R.kdim, ∀ i < J.R.nPoint, x (a * J.R.nPoint + i) = x' (i * J.R.kdim + a) := by unfold LayX at hx; rw [e] at hx; exact hx
      have hy' : ∀ v < J.R.arr.nNode, J.R.minAdm ≤ J.R.arr.level v → ∀ a < J.R.kdim, ∀ i < J.jn v, (y v).2 (a * J.jn v + i) = (y' v).2 (i * J.R.kdim + a) := by
        unfold LayY at hy; rw [e] at hy; exact hy
      rw [hdiv]
      refine ⟨fun b hb j hj => hy' n1 hn.2 (by omega) b hb j hj, fun a ha i hi => layX_pt h hx' hn.1 hi ha,
        fun a ha i hi => relT_ty h hn.1 ht hi ha, fun b hb j hj => relT_y1 h E pv1 ht hj hb⟩
  · -- same level
    have s0 : J.sidePts n0 n1 = J.jPts n0 := by unfold JIT.sidePts; rw [if_pos (by omega)]
    have s1 : J.sidePts n1 n0 = J.jPts n1 := by unfold JIT.sidePts; rw [if_pos (by omega)]
    rw [s0, s1] at hsm ⊢
    have hq : (J.block (J.jPts n0) (J.jPts n1)).ncol = (J.jPts n1).2.2 * J.R.kdim := rfl
    have hp : (J.block (J.jPts n0) (J.jPts n1)).nrow = (J.jPts n0).2.2 * J.R.kdim := rfl
    have hpos : 0 < (J.jPts n1).2.2 * J.R.kdim := Nat.mul_pos (jpos n1 hn.2 (by omega)) hk
    rw [if_neg (show ¬ ((J.block (J.jPts n0) (J.jPts n1)).ncol = 0 ∨ J.R.kdim = 0) by rw [hq]; omega), if_pos hl, if_pos hl]
    have pv1 : PVm J n1 := ⟨hn.2, by omega, hmk.2 (by omega)⟩
    have pv0 : PVm J n0 := ⟨hn.1, by omega, hmk.1 (by omega)⟩
    rw [hq]
    apply call_sim h _ _ hS
    · intro e
      have hy' : y = y' := by unfold LayY at hy; rw [e] at hy; exact hy
      refine ⟨hpos, hsm e, hfu.1 n0 hn.1, by rw [hy'], by rw [hy'], rfl, rfl⟩
    · intro f e
      have hy' : ∀ v < J.R.arr.nNode, J.R.minAdm ≤ J.R.arr.level v → ∀ a < J.R.kdim, ∀ i < J.jn v, (y v).2 (a * J.jn v + i) = (y' v).2 (i * J.R.kdim + a) := by
        unfold LayY at hy; rw [e] at hy; exact hy
      rw [hdiv, hp, hdiv]
      refine ⟨fun b hb j hj => hy' n1 hn.2 (by omega) b hb j hj, fun a ha i hi => hy' n0 hn.1 (by omega) a ha i hi,
        fun a ha i hi => relT_y1 h E pv0 ht hi ha, fun b hb j hj => relT_y1 h E pv1 ht hj hb⟩
  · -- node1 on a higher level
    have s0 : J.sidePts n0 n1 = J.jPts n0 := by unfold JIT.sidePts; rw [if_pos (by omega)]
    have s1 : J.sidePts n1 n0 = J.cPts n1 := by unfold JIT.sidePts; rw [if_neg (by omega)]
    rw [s0, s1] at hsm ⊢
    have hq : (J.block (J.jPts n0) (J.cPts n1)).ncol = (J.cPts n1).2.2 * J.R.kdim := rfl
    have hp : (J.block (J.jPts n0) (J.cPts n1)).nrow = (J.jPts n0).2.2 * J.R.kdim := rfl
    have hpos : 0 < (J.cPts n1).2.2 * J.R.kdim := Nat.mul_pos (npt_pos n1) hk
    rw [if_neg (show ¬ ((J.block (J.jPts n0) (J.cPts n1)).ncol = 0 ∨ J.R.kdim = 0) by rw [hq]; omega), if_neg (show ¬ J.R.arr.level n0 = J.R.arr.level n1 by omega), if_pos (show J.R.arr.level n0 > J.R.arr.level n1 by omega),
      if_neg (show ¬ J.R.arr.level n0 = J.R.arr.level n1 by omega), if_pos hl]
    have pv0 : PVm J n0 := ⟨hn.1, by omega, hmk.1 (by omega)⟩
    rw [hq]
    apply call_sim h _ _ hS
    · intro e
      have hx' : x = x' := by unfold LayX at hx; rw [e] at hx; exact hx
      have hy' : y = y' := by unfold LayY at hy; rw [e] at hy; exact hy
      refine ⟨hpos, hsm e, hfu.1 n0 hn.1, by rw [hx']; rfl, by rw [hy'], rfl, rfl⟩
    · intro f e
      have hx' : ∀ a < J.R.kdim, ∀ i < J.R.nPoint, x (a * J.R.nPoint + i) = x' (i * J.R.kdim + a) := by unfold LayX at hx; rw [e] at hx; exact hx
      have hy' : ∀ v < J.R.arr.nNode, J.R.minAdm ≤ J.R.arr.level v → ∀ a < J.R.kdim, ∀ i < J.jn v, (y v).2 (a * J.jn v + i) = (y' v).2 (i * J.R.kdim + a) := by
        unfold LayY at hy; rw [e] at hy; exact hy
      rw [hp, hdiv]
      refine ⟨fun b hb j hj => layX_pt h hx' hn.2 hj hb, fun a ha i hi => hy' n0 hn.1 (by omega) a ha i hi,
        fun a ha i hi => relT_y1 h E pv0 ht hi ha, fun b hb j hj => relT_ty h hn.2 ht hj hb⟩

end
end H2Pack.MV
