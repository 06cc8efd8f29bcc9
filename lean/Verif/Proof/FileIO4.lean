import Verif.Proof.FileIO3

set_option linter.unusedSectionVars false

/-! # The reader as a whole -/

namespace H2Pack.IO
open H2Pack.MV
open H2Pack.Part (Arr kids ClusterTree)

section
variable {K : Type} [CommRing K]

/-- What the metadata loops of the reader hold. -/
def sizesB (J : JIT K) : MetaSt := (List.range J.R.adm.length).foldl (fun s i => s.size i (J.aot.B i).nrow (J.aot.B i).ncol) MetaSt.init
def sizesD0 (J : JIT K) : MetaSt := (List.range J.R.arr.nLeaf).foldl (fun s i => s.size i (J.aot.D i).nrow (J.aot.D i).ncol) MetaSt.init
def sizesD1 (J : JIT K) : MetaSt := (List.range J.R.inadm.length).foldl (fun s i => s.size (i + J.R.arr.nLeaf) (J.aot.D (J.R.arr.nLeaf + i)).nrow (J.aot.D (J.R.arr.nLeaf + i)).ncol)
  { sizesD0 J with total := 0 }

/-- The data of the matrix `H` have been read. -/
structure RawOk (F : Fmt K) (H : Mtx K) (c : Nat → K) (tol : K) (jm : Bool) (Q : Raw K) : Prop where
  ptDim : Q.ptDim = H.ptDim
  isHSS : Q.isHSS = if H.isHSS then 1 else 0
  nodes : NodesRead H.J.R.arr Q.R.arr H.J.R.arr.nNode
  levelN : ∀ l, Q.R.arr.levelN l = H.J.R.arr.levelN l
  levels : ∀ l, (List.range (Q.R.arr.levelN l)).map (fun r => Q.R.arr.levelNodes (l * H.J.R.arr.nLeaf + r)) = (List.range H.J.R.arr.nNode).filter (fun v => H.J.R.arr.level v = l)
  leaf : ∀ i < H.J.R.arr.nLeaf, Q.R.leaf i = H.J.R.leaf i
  nPoint : Q.R.nPoint = H.J.R.nPoint
  kdim : Q.R.kdim = H.J.R.kdim
  idx : ∀ i < H.J.R.nPoint, Q.R.coordIdx i = H.J.R.coordIdx i
  U : ∀ v < H.J.R.arr.nNode, SameMat (H.J.R.U v) (Q.R.U v)
  adm : Q.R.adm = H.J.R.adm
  inadm : Q.R.inadm = H.J.R.inadm
  minAdm : Q.R.minAdm = H.J.R.minAdm
  sB : Q.sB = sizesB H.J
  sD0 : Q.sD0 = sizesD0 H.J
  sD1 : Q.sD1 = sizesD1 H.J
  maxLeaf : Q.maxLeaf = H.maxLeaf
  tol : Q.tol = tol
  coord : ∀ i < H.J.R.nPoint, ∀ j < H.ptDim, Q.coord (j * H.J.R.nPoint + i) = F.val (F.bits (c (H.J.R.coordIdx i * H.ptDim + j))) ∧
    Q.coord0 (j * H.J.R.nPoint + H.J.R.coordIdx i) = F.val (F.bits (c (H.J.R.coordIdx i * H.ptDim + j)))
  skel : ∀ v < H.J.R.arr.nNode, Q.skel.idx v = H.skel v ∧ ∀ d, ∀ k < (H.skel v).length,
    Q.skel.jc v (d * (H.skel v).length + k) = Q.coord (d * H.J.R.nPoint + (H.skel v).getD k 0)
  jit : Q.jit = jm
  bData : jm = false → ∀ ptr : Nat → Nat, ptr 0 = 0 → (∀ i < H.J.R.adm.length, ptr (i + 1) = ptr i + (H.J.aot.B i).nrow * (H.J.aot.B i).ncol) →
    ∀ i < H.J.R.adm.length, ∀ k < (H.J.aot.B i).nrow * (H.J.aot.B i).ncol, Q.bData (ptr i + k) = (H.J.aot.B i).e (k / (H.J.aot.B i).ncol) (k % (H.J.aot.B i).ncol)
  dData : jm = false → ∀ ptr : Nat → Nat, ptr 0 = 0 → (∀ i < H.J.R.arr.nLeaf + H.J.R.inadm.length, ptr (i + 1) = ptr i + (H.J.aot.D i).nrow * (H.J.aot.D i).ncol) →
    ∀ i < H.J.R.arr.nLeaf + H.J.R.inadm.length, ∀ k < (H.J.aot.D i).nrow * (H.J.aot.D i).ncol,
      Q.dData (ptr i + k) = (H.J.aot.D i).e (k / (H.J.aot.D i).ncol) (k % (H.J.aot.D i).ncol)

theorem sizes_fold (n o : Nat) (f : Nat → Nat × Nat) (s0 : MetaSt) :
    (∀ i < n, ((List.range n).foldl (fun s i => s.size (i + o) (f i).1 (f i).2) s0).nrow (o + i) = (f i).1 ∧
      ((List.range n).foldl (fun s i => s.size (i + o) (f i).1 (f i).2) s0).ncol (o + i) = (f i).2) ∧
    ∀ i < o, ((List.range n).foldl (fun s i => s.size (i + o) (f i).1 (f i).2) s0).nrow i = s0.nrow i ∧
      ((List.range n).foldl (fun s i => s.size (i + o) (f i).1 (f i).2) s0).ncol i = s0.ncol i := by
  induction n with
  | zero => exact ⟨by intro i hi; omega, fun i _ => ⟨rfl, rfl⟩⟩
  | succ n ih =>
    rw [List.range_succ, List.foldl_append]
    simp only [List.foldl_cons, List.foldl_nil]
    generalize (List.range n).foldl (fun s i => s.size (i + o) (f i).1 (f i).2) s0 = s at ih
    refine ⟨?_, ?_⟩
    · intro i hi
      by_cases e : i = n
      · subst e
        rw [Nat.add_comm o i]
        exact ⟨Function.update_self .., Function.update_self ..⟩
      · obtain ⟨h1, h2⟩ := ih.1 i (by omega)
        exact ⟨(Function.update_of_ne (by omega) ..).trans h1, (Function.update_of_ne (by omega) ..).trans h2⟩
    · intro i hi
      obtain ⟨h1, h2⟩ := ih.2 i hi
      exact ⟨(Function.update_of_ne (by omega) ..).trans h1, (Function.update_of_ne (by omega) ..).trans h2⟩

theorem sizesB_eq (J : JIT K) : ∀ i < J.R.adm.length, (sizesB J).nrow i = (J.aot.B i).nrow ∧ (sizesB J).ncol i = (J.aot.B i).ncol := by
  intro i hi
  have := (sizes_fold J.R.adm.length 0 (fun i => ((J.aot.B i).nrow, (J.aot.B i).ncol)) MetaSt.init).1 i hi
  rw [Nat.zero_add] at this
  exact this

theorem sizesD1_eq (J : JIT K) : ∀ i < J.R.arr.nLeaf + J.R.inadm.length, (sizesD1 J).nrow i = (J.aot.D i).nrow ∧ (sizesD1 J).ncol i = (J.aot.D i).ncol := by
  intro i hi
  by_cases h : i < J.R.arr.nLeaf
  · have h1 := (sizes_fold J.R.arr.nLeaf 0 (fun i => ((J.aot.D i).nrow, (J.aot.D i).ncol)) MetaSt.init).1 i h
    rw [Nat.zero_add] at h1
    have h2 := (sizes_fold J.R.inadm.length J.R.arr.nLeaf (fun i => ((J.aot.D (J.R.arr.nLeaf + i)).nrow, (J.aot.D (J.R.arr.nLeaf + i)).ncol))
      { sizesD0 J with total := 0 }).2 i h
    exact ⟨h2.1.trans h1.1, h2.2.trans h1.2⟩
  · have h2 := (sizes_fold J.R.inadm.length J.R.arr.nLeaf (fun i => ((J.aot.D (J.R.arr.nLeaf + i)).nrow, (J.aot.D (J.R.arr.nLeaf + i)).ncol))
      { sizesD0 J with total := 0 }).1 (i - J.R.arr.nLeaf) (by omega)
    rw [show J.R.arr.nLeaf + (i - J.R.arr.nLeaf) = i by omega] at h2
    exact h2

theorem exists_ptr (f : Nat → Nat) : ∃ p : Nat → Nat, p 0 = 0 ∧ (∀ i, p (i + 1) = p i + f i) ∧
    ∀ (n : Nat) (q : Nat → Nat), q 0 = 0 → (∀ i < n, q (i + 1) = q i + f i) → ∀ i ≤ n, q i = p i := by
  refine ⟨fun n => ((List.range n).map f).sum, rfl, ?_, ?_⟩
  · intro i; dsimp only; rw [List.range_succ, List.map_append, List.sum_append]; simp
  · intro n q h0 h i
    induction i with
    | zero => intro _; rw [h0]; rfl
    | succ i ih =>
      intro hi
      rw [h i (by omega), ih (by omega)]
      dsimp only
      rw [List.range_succ, List.map_append, List.sum_append]; simp

/-- The part of the binary file that is read. -/
def binRead (J : JIT K) (jit : Bool) : List K :=
  (List.range J.R.arr.nNode).flatMap (fun i => matFlat (J.R.U i)) ++
  ((if jit then [] else (List.range J.R.adm.length).flatMap (fun i => matFlat (J.aot.B i))) ++
   (if jit then [] else (List.range (J.R.arr.nLeaf + J.R.inadm.length)).flatMap (fun i => matFlat (J.aot.D i))))

theorem bin_split (J : JIT K) (jit : Bool) : ∃ r, bin J = binRead J jit ++ r := by
  cases jit
  · exact ⟨[], by simp [bin, binRead]⟩
  · exact ⟨_, by rw [bin, binRead, List.append_assoc]; simp; rfl⟩

theorem readFile_feeds (F : Fmt K) (zero : K) (jit : Bool) (G : Fresh K) (H : Mtx K) (c : Nat → K) (tol : K)
    (T : ClusterTree H.J.R.arr H.J.R.nPoint) (hmc : H.J.R.arr.maxChild = 2 ^ H.ptDim) (hidx : ∀ i < H.J.R.nPoint, H.J.R.coordIdx i < H.J.R.nPoint) :
    ∃ Q, Feeds (readFile F zero jit G) (txt F H c tol).flatten (binRead H.J jit) Q ∧ RawOk F H c tol jit Q := by
  set R := H.J.R with hR
  set A0 : Arr K := { G.arr with nNode := R.arr.nNode, nLeaf := 0, maxLevel := R.arr.maxLevel + 1 - 1, maxChild := 2 ^ H.ptDim } with hA0
  obtain ⟨A1, f1, n1⟩ := readNodes_feeds T R.kdim A0 rfl rfl rfl hmc.symm
  obtain ⟨A2, f2, a1, a2, a3⟩ := fillLevels_feeds T n1
  have hA2 : NodesRead R.arr A2 R.arr.nNode := by
    rw [a1]; exact ⟨n1.nNode, n1.maxChild, n1.maxLevel, n1.nLeaf, n1.level, n1.ptS, n1.ptE, n1.nChild, n1.children, n1.parent⟩
  have hnl : A2.nLeaf = R.arr.nLeaf := by rw [hA2.nLeaf, T.nLeaf]
  obtain ⟨U, f3, u1⟩ := readU_feeds zero R.arr.nNode R.U G.U
  have f4 := readB_feeds H.J MetaSt.init
  obtain ⟨lf, f5, l1⟩ := readD0_feeds H.J (Function.update G.leaf 0 R.arr.nLeaf) MetaSt.init
  have f6 := readD1_feeds H.J { sizesD0 H.J with total := 0 }
  obtain ⟨raw, f7, r1⟩ := readCoord_feeds F R.nPoint H.ptDim c G.bits
  obtain ⟨p, f8, p1⟩ := readPerm_feeds (K := K) R.nPoint R.coordIdx G.perm
  obtain ⟨sk, f9, s1⟩ := readSkel_feeds R.nPoint R.arr.nNode (permCoord F R.nPoint H.ptDim p raw G.coord).1 H.skel G.skel
  obtain ⟨pb, pb0, pb1, pb2⟩ := exists_ptr (fun i => (H.J.aot.B i).nrow * (H.J.aot.B i).ncol)
  obtain ⟨pd, pd0, pd1, pd2⟩ := exists_ptr (fun i => (H.J.aot.D i).nrow * (H.J.aot.D i).ncol)
  obtain ⟨bd, f10, b1⟩ := readBlk_feeds R.adm.length H.J.aot.B (sizesB H.J).nrow (sizesB H.J).ncol pb (fun i hi => (sizesB_eq H.J i hi).1) (fun i hi => (sizesB_eq H.J i hi).2)
    pb0 (fun i _ => pb1 i) G.bData
  obtain ⟨dd, f11, d1⟩ := readBlk_feeds (R.arr.nLeaf + R.inadm.length) H.J.aot.D (sizesD1 H.J).nrow (sizesD1 H.J).ncol pd
    (fun i hi => (sizesD1_eq H.J i hi).1) (fun i hi => (sizesD1_eq H.J i hi).2) pd0 (fun i _ => pd1 i) G.dData
  set Q : Raw K := ⟨H.ptDim, if H.isHSS then 1 else 0, ⟨{ A2 with heightNodes := lf }, R.nPoint, R.kdim, p, U, R.adm, R.inadm,
    fun _ => ⟨0, 0, fun _ _ => zero⟩, fun _ => ⟨0, 0, fun _ _ => zero⟩, R.minAdm, fun _ => 0⟩,
    sizesB H.J, sizesD0 H.J, sizesD1 H.J, H.maxLeaf, tol, (permCoord F R.nPoint H.ptDim p raw G.coord).1, (permCoord F R.nPoint H.ptDim p raw G.coord).2, sk, jit,
    if jit then G.bData else bd.2, if jit then G.dData else dd.2⟩ with hQ
  refine ⟨Q, ?_, ?_⟩
  · have et : (txt F H c tol).flatten = [.nat H.ptDim, .nat R.kdim, .nat R.nPoint, .nat R.size, .nat R.size, .nat 1,
        .nat R.arr.nNode, .nat R.arr.nNode, .nat (R.arr.nNode - 1), .nat (R.arr.nNode - 1),
        .nat (R.arr.maxLevel + 1), .nat (R.arr.maxLevel + 1), .nat (if H.isHSS then 1 else 0), .nat R.minAdm,
        .nat R.inadm.length, .nat R.adm.length, .nat (hasPart R)] ++
        ((List.range R.arr.nNode).flatMap (nodeLine R.arr) ++ ((List.range R.arr.nNode).flatMap (uLine R.U) ++ ((List.range R.adm.length).flatMap (bLine H.J) ++
        ((List.range R.arr.nLeaf).flatMap (dLine H.J) ++ ((List.range R.inadm.length).flatMap (fun i => dLine H.J (R.arr.nLeaf + i)) ++
        ([.nat H.maxLeaf, .exp tol, .nat 1] ++ ((List.range R.nPoint).flatMap (coordLine F H.ptDim c) ++ ((List.range R.nPoint).flatMap (fun i => [.nat (R.coordIdx i)]) ++
        ((List.range R.arr.nNode).flatMap (skelLine H.skel) ++ []))))))))) := by
      unfold txt
      rw [range_add_map]
      simp only [List.flatten_append, List.flatMap_def, List.append_assoc, List.append_nil]
      rfl
    rw [et]
    unfold readFile
    refine Feeds.cons (feeds_nat _) (Feeds.cons (feeds_nat _) (Feeds.cons (feeds_nat _) (Feeds.cons (feeds_nat _) (Feeds.cons (feeds_nat _) (Feeds.cons (feeds_int _)
      (Feeds.cons (feeds_nat _) (Feeds.cons (feeds_nat _) (Feeds.cons (feeds_nat _) (Feeds.cons (feeds_nat _) (Feeds.cons (feeds_nat _) (Feeds.cons (feeds_nat _)
      (Feeds.skip (feeds_bound ?_) (Feeds.cons (feeds_nat _) (Feeds.cons (feeds_nat _) (Feeds.cons (feeds_nat _) (Feeds.cons (feeds_nat _) (Feeds.cons (feeds_nat _) ?_)))))))))))))))))
    · simp
    unfold binRead
    refine Feeds.bind (b1 := []) (t1 := (List.range R.arr.nNode).flatMap (nodeLine R.arr)) f1 (Feeds.skip f2 (Feeds.bind f3 ?_))
    refine Feeds.bind (b1 := []) f4 ?_
    refine Feeds.bind (b1 := []) (by rw [hnl]; exact f5) ?_
    refine Feeds.bind (b1 := []) (by rw [hnl]; exact f6) ?_
    refine Feeds.cons (feeds_nat _) (Feeds.cons (feeds_exp _) (Feeds.cons (feeds_int _) ?_))
    refine Feeds.bind (b1 := []) (t1 := (List.range R.nPoint).flatMap (coordLine F H.ptDim c)) f7 (Feeds.bind (b1 := []) f8 ?_)
    dsimp only
    rw [if_pos (by decide)]
    refine Feeds.bind (b1 := []) f9 ?_
    cases jit
    · simp only [if_true, Bool.false_eq_true, if_false]
      refine Feeds.bind (t1 := []) (t2 := []) f10 ?_
      refine Feeds.last (by rw [hnl]; exact f11) (by rw [hQ]; exact Feeds.pure _)
    · simp only [if_true, Bool.true_eq_false, if_false]
      rw [hQ]
      exact Feeds.pure _
  · have hp := permCoord_eq F R.nPoint H.ptDim p (fun i hi => by rw [p1 i hi]; exact hidx i hi) raw G.coord
    refine ⟨rfl, rfl, ⟨hA2.nNode, hA2.maxChild, hA2.maxLevel, hA2.nLeaf, hA2.level, hA2.ptS, hA2.ptE, hA2.nChild, hA2.children, hA2.parent⟩, a2, a3, l1, rfl, rfl, p1, u1, rfl, rfl, rfl, rfl, rfl, rfl, rfl, rfl,
      ?_, s1, rfl, ?_, ?_⟩
    · intro i hi j hj
      have h := hp i hi j hj
      rw [p1 i hi, r1 _ (hidx i hi) j hj] at h
      exact h
    · intro e ptr e0 e1 i hi k hk
      rw [pb2 R.adm.length ptr e0 e1 i (Nat.le_of_lt hi)]
      show (if jit then G.bData else bd.2) _ = _
      rw [e]
      exact b1 i hi k hk
    · intro e ptr e0 e1 i hi k hk
      rw [pd2 (R.arr.nLeaf + R.inadm.length) ptr e0 e1 i (Nat.le_of_lt hi)]
      show (if jit then G.dData else dd.2) _ = _
      rw [e]
      exact d1 i hi k hk

end

end H2Pack.IO
