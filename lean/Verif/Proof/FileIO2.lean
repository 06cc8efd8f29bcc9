import Verif.Proof.FileIO
import Verif.Props.Metadata

set_option linter.unusedSectionVars false

/-! # What the store writes, and what the scripts make of it -/

namespace H2Pack.IO
open H2Pack.MV
open H2Pack.Part (Arr kids ClusterTree)

section
variable {K : Type} [CommRing K]

/-! ## Closed form of the files -/

def bLine (J : JIT K) (i : Nat) : Line K :=
  [.nat (J.R.adm.getD i (0, 0)).1, .nat (J.R.adm.getD i (0, 0)).2, .nat (J.aot.B i).nrow, .nat (J.aot.B i).ncol,
    .nat (if J.R.arr.level (J.R.adm.getD i (0, 0)).1 ≠ J.R.arr.level (J.R.adm.getD i (0, 0)).2 then 1 else 0)]

/-- The pair of dense block number `k`. -/
def dPair (R : Rep K) (k : Nat) : Nat × Nat := if k < R.arr.nLeaf then (R.leaf k, R.leaf k) else R.inadm.getD (k - R.arr.nLeaf) (0, 0)

def dLine (J : JIT K) (k : Nat) : Line K :=
  [.nat (dPair J.R k).1, .nat (dPair J.R k).2, .nat (J.aot.D k).nrow, .nat (J.aot.D k).ncol]

/-- The text file; `c` are the coordinates in the original order, `tol` the text of the tolerance. -/
def txt (F : Fmt K) (H : Mtx K) (c : Nat → K) (tol : K) : List (Line K) :=
  header H ++ (List.range H.J.R.arr.nNode).map (nodeLine H.J.R.arr) ++ (List.range H.J.R.arr.nNode).map (uLine H.J.R.U) ++
  (List.range H.J.R.adm.length).map (bLine H.J) ++ (List.range (H.J.R.arr.nLeaf + H.J.R.inadm.length)).map (dLine H.J) ++
  [[.nat H.maxLeaf], [.exp tol], [.nat 1]] ++ (List.range H.J.R.nPoint).map (coordLine F H.ptDim c) ++
  (List.range H.J.R.nPoint).map (fun i => [.nat (H.J.R.coordIdx i)]) ++ (List.range H.J.R.arr.nNode).map (skelLine H.skel)

def bin (J : JIT K) : List K :=
  (List.range J.R.arr.nNode).flatMap (fun i => matFlat (J.R.U i)) ++ (List.range J.R.adm.length).flatMap (fun i => matFlat (J.aot.B i)) ++
  (List.range (J.R.arr.nLeaf + J.R.inadm.length)).flatMap (fun i => matFlat (J.aot.D i))

/-- The lookups find all blocks (C27). -/
structure Lookups (H : Mtx K) : Prop where
  b : ∀ i < H.J.R.adm.length, ∀ g, IsBlock (getBij H.J H.MB H.jit H.bData g (H.J.R.adm.getD i (0, 0)).1 (H.J.R.adm.getD i (0, 0)).2) (H.J.aot.B i) false
  d : ∀ k < H.J.R.arr.nLeaf + H.J.R.inadm.length, ∀ g, IsBlock (getDij H.J H.MD H.jit H.dData g (dPair H.J.R k).1 (dPair H.J.R k).2) (H.J.aot.D k) false

theorem blkFlat_eq {d : Nat → K} {B : Mat K} {ld : Int} (h : ∀ r < B.nrow, ∀ c < B.ncol, d (r * B.ncol + c) = B.e r c) :
    blkFlat ⟨B.nrow, B.ncol, ld, d⟩ = matFlat B := by
  unfold blkFlat matFlat
  apply List.map_congr_left
  intro k hk
  rw [List.mem_range] at hk
  have hpos : 0 < B.ncol := by
    rcases Nat.eq_zero_or_pos B.ncol with h | h
    · rw [h] at hk; simp at hk
    · exact h
  rw [← h (k / B.ncol) (Nat.div_lt_of_lt_mul (by rw [Nat.mul_comm]; exact hk)) (k % B.ncol) (Nat.mod_lt _ hpos)]
  rw [Nat.mul_comm, Nat.div_add_mod]

theorem storeB_fold {H : Mtx K} (L : Lookups H) (g : Nat → Nat → K) (s : Out K) : ∀ n ≤ H.J.R.adm.length, ∃ tmp,
    (List.range n).foldl (storeB H g) s = ⟨s.lines ++ (List.range n).map (bLine H.J), s.bin ++ (List.range n).flatMap (fun i => matFlat (H.J.aot.B i)), tmp⟩ := by
  intro n
  induction n with
  | zero => intro _; exact ⟨s.tmp, by simp⟩
  | succ n ih =>
    intro hn
    obtain ⟨tmp, h⟩ := ih (by omega)
    obtain ⟨d, e, hd⟩ := L.b n (by omega) (g n)
    refine ⟨⟨(H.J.aot.B n).nrow, (H.J.aot.B n).ncol, if false then -((H.J.aot.B n).ncol : Int) else (H.J.aot.B n).ncol, d⟩, ?_⟩
    rw [List.range_succ, List.foldl_append, h]
    simp only [List.foldl_cons, List.foldl_nil, List.map_append, List.map_cons, List.map_nil, List.flatMap_append, List.flatMap_cons,
      List.flatMap_nil, List.append_nil]
    unfold storeB
    dsimp only
    rw [e]
    simp only [Option.getD_some]
    rw [blkFlat_eq hd, List.append_assoc, List.append_assoc]
    rfl

theorem storeD_fold {H : Mtx K} (L : Lookups H) (g : Nat → Nat → K) (m n : Nat) (p : Nat → Nat × Nat) (hp : ∀ i < n, p i = dPair H.J.R (m + i))
    (hn : m + n ≤ H.J.R.arr.nLeaf + H.J.R.inadm.length) (s : Out K) : ∃ tmp,
    (List.range n).foldl (fun s i => storeD H (g i) (p i).1 (p i).2 s) s =
      ⟨s.lines ++ (List.range n).map (fun i => dLine H.J (m + i)), s.bin ++ (List.range n).flatMap (fun i => matFlat (H.J.aot.D (m + i))), tmp⟩ := by
  induction n with
  | zero => exact ⟨s.tmp, by simp⟩
  | succ n ih =>
    obtain ⟨tmp, h⟩ := ih (fun i hi => hp i (by omega)) (by omega)
    obtain ⟨d, e, hd⟩ := L.d (m + n) (by omega) (g n)
    refine ⟨⟨(H.J.aot.D (m + n)).nrow, (H.J.aot.D (m + n)).ncol, if false then -((H.J.aot.D (m + n)).ncol : Int) else (H.J.aot.D (m + n)).ncol, d⟩, ?_⟩
    rw [List.range_succ, List.foldl_append, h]
    simp only [List.foldl_cons, List.foldl_nil, List.map_append, List.map_cons, List.map_nil, List.flatMap_append, List.flatMap_cons,
      List.flatMap_nil, List.append_nil]
    unfold storeD
    dsimp only
    rw [hp n (by omega), e]
    simp only [Option.getD_some]
    rw [blkFlat_eq hd, List.append_assoc, List.append_assoc]
    rfl

theorem range_add_map {β : Type} (f : Nat → β) (m n : Nat) : (List.range (m + n)).map f = (List.range m).map f ++ (List.range n).map (fun i => f (m + i)) := by
  rw [List.range_add, List.map_append, List.map_map]; rfl

theorem range_add_flatMap {β : Type} (f : Nat → List β) (m n : Nat) :
    (List.range (m + n)).flatMap f = (List.range m).flatMap f ++ (List.range n).flatMap (fun i => f (m + i)) := by
  rw [List.range_add, List.flatMap_append, List.flatMap_map]

theorem store_eq (F : Fmt K) {H : Mtx K} (L : Lookups H) (hx : ¬ H.J.xdim > H.ptDim) (gB gD : Nat → Nat → K) (c0 : Nat → K) (tmp : Blk K) :
    store F H gB gD c0 tmp = some (txt F H (origCoord H.J.R.nPoint H.ptDim H.J.R.coordIdx H.J.coord c0) (F.e6 H.tol), bin H.J) := by
  unfold store
  dsimp only
  rw [if_neg hx]
  obtain ⟨t1, h1⟩ := storeB_fold L gB ⟨header H ++ (List.range H.J.R.arr.nNode).map (nodeLine H.J.R.arr) ++ (List.range H.J.R.arr.nNode).map (uLine H.J.R.U),
      (List.range H.J.R.arr.nNode).flatMap (fun i => matFlat (H.J.R.U i)), tmp⟩ _ (le_refl _)
  rw [h1]
  obtain ⟨t2, h2⟩ := storeD_fold L gD 0 H.J.R.arr.nLeaf (fun i => (H.J.R.leaf i, H.J.R.leaf i))
    (by intro i hi; unfold dPair; rw [Nat.zero_add, if_pos hi]) (by omega) _
  rw [h2]
  obtain ⟨t3, h3⟩ := storeD_fold L (fun i => gD (H.J.R.arr.nLeaf + i)) H.J.R.arr.nLeaf H.J.R.inadm.length (fun i => H.J.R.inadm.getD i (0, 0))
    (by intro i hi; unfold dPair; rw [if_neg (by omega), Nat.add_sub_cancel_left]) (by omega)
    (Out.mk _ _ t2)
  rw [h3]
  unfold txt bin
  rw [range_add_map, range_add_flatMap]
  simp only [Nat.zero_add, List.append_assoc]

/-! ## The coordinates in the original order -/

theorem origCoord_eq {n dim : Nat} {idx : Nat → Nat} (hinj : ∀ i < n, ∀ j < n, idx i = idx j → i = j) (coord c0 : Nat → K) :
    ∀ i < n, ∀ j < dim, origCoord n dim idx coord c0 (idx i * dim + j) = coord (j * n + i) := by
  unfold origCoord
  suffices h : ∀ m ≤ n, ∀ i < m, ∀ j < dim, (List.range m).foldl (fun c i => (List.range dim).foldl (fun c j =>
      Function.update c (idx i * dim + j) (coord (j * n + i))) c) c0 (idx i * dim + j) = coord (j * n + i) from h n (le_refl _)
  intro m
  induction m with
  | zero => intro _ i hi; omega
  | succ m ih =>
    intro hm i hi j hj
    rw [List.range_succ, List.foldl_append]
    simp only [List.foldl_cons, List.foldl_nil]
    generalize hc : (List.range m).foldl (fun c i => (List.range dim).foldl (fun c j =>
      Function.update c (idx i * dim + j) (coord (j * n + i))) c) c0 = c at ih
    have inner : ∀ d ≤ dim, ∀ (k : Nat), (List.range d).foldl (fun c j => Function.update c (idx m * dim + j) (coord (j * n + m))) c k =
        if idx m * dim ≤ k ∧ k < idx m * dim + d then coord ((k - idx m * dim) * n + m) else c k := by
      intro d
      induction d with
      | zero => intro _ k; rw [if_neg (by omega)]; rfl
      | succ d ihd =>
        intro hd k
        rw [List.range_succ, List.foldl_append]
        simp only [List.foldl_cons, List.foldl_nil]
        by_cases hk : k = idx m * dim + d
        · subst hk; rw [Function.update_self, if_pos (by omega), Nat.add_sub_cancel_left]
        · rw [Function.update_of_ne hk, ihd (by omega)]
          by_cases h : idx m * dim ≤ k ∧ k < idx m * dim + d
          · rw [if_pos h, if_pos (by omega)]
          · rw [if_neg h, if_neg (by omega)]
    rw [inner dim (le_refl _)]
    by_cases him : i = m
    · subst him; rw [if_pos (by omega), Nat.add_sub_cancel_left]
    · rw [if_neg, ih (by omega) i (by omega) j hj]
      rintro ⟨h1, h2⟩
      have hne : idx i ≠ idx m := fun h => him (hinj i (by omega) m (by omega) h)
      rcases Nat.lt_or_gt_of_ne hne with hlt | hgt
      · have := Nat.mul_le_mul_right dim (show idx i + 1 ≤ idx m by omega)
        rw [Nat.add_mul] at this; omega
      · have := Nat.mul_le_mul_right dim (show idx m + 1 ≤ idx i by omega)
        rw [Nat.add_mul] at this; omega

/-! ## The scripts -/

def nodeJ (A : Arr K) (i : Nat) : NodeJ :=
  ⟨i, A.level i, A.ptS i, A.ptE i, A.nChild i, (List.range (A.nChild i)).map fun j => A.children (i * A.maxChild + j)⟩

theorem parseNode_eq (A : Arr K) (i : Nat) : parseNode (nodeLine A i) = some (nodeJ A i) := by
  unfold parseNode
  have hc : ∀ j < A.nChild i, fieldInt (nodeLine A i) (5 + j) = some (A.children (i * A.maxChild + j)) := by
    intro j hj
    apply fieldInt_eq
    unfold nodeLine
    rw [List.append_assoc, List.getElem?_append_right (by simp), List.getElem?_append_left (by simp; omega)]
    simp [hj]
  rw [show fieldInt (nodeLine A i) 0 = some (i : Int) from rfl, show fieldInt (nodeLine A i) 1 = some (A.level i : Int) from rfl,
    show fieldInt (nodeLine A i) 2 = some (A.ptS i : Int) from rfl, show fieldInt (nodeLine A i) 3 = some (A.ptE i : Int) from rfl,
    show fieldInt (nodeLine A i) 4 = some (A.nChild i : Int) from rfl]
  simp only [Option.bind_eq_bind, Option.bind_some, Int.toNat_natCast]
  rw [mapM_some _ _ (fun j => A.children (i * A.maxChild + j)) (fun j hj => hc j (List.mem_range.1 hj))]
  rfl

def skelJ (skel : Nat → List Nat) (i : Nat) : SkelJ := ⟨i, (skel i).length, (skel i).map fun v : Nat => (v : Int)⟩

theorem parseSkel_eq (skel : Nat → List Nat) (i : Nat) : parseSkel (skelLine (K := K) skel i) = some (skelJ skel i) := by
  unfold parseSkel
  have hc : ∀ j ∈ List.range (skel i).length, fieldInt (skelLine (K := K) skel i) (2 + j) = some (((skel i).getD j 0 : Nat) : Int) := by
    intro j hj
    rw [List.mem_range] at hj
    apply fieldInt_eq
    unfold skelLine
    rw [List.getElem?_append_right (by simp)]
    simp [hj, Tok.nat]
  rw [show fieldInt (skelLine (K := K) skel i) 0 = some (i : Int) from rfl, show fieldInt (skelLine (K := K) skel i) 1 = some ((skel i).length : Int) from rfl]
  simp only [Option.bind_eq_bind, Option.bind_some, Int.toNat_natCast]
  rw [mapM_some _ _ _ hc]
  simp only [Option.bind_some]
  unfold skelJ
  congr 2
  apply List.ext_getElem
  · simp
  · intro k h1 h2
    simp at h1
    simp [h1]

def uJ (U : Nat → Mat K) (i : Nat) : UJ := ⟨i, (U i).nrow, (U i).ncol⟩
def bJ (J : JIT K) (i : Nat) : BJ :=
  ⟨(J.R.adm.getD i (0, 0)).1, (J.R.adm.getD i (0, 0)).2, (J.aot.B i).nrow, (J.aot.B i).ncol,
    ((if J.R.arr.level (J.R.adm.getD i (0, 0)).1 ≠ J.R.arr.level (J.R.adm.getD i (0, 0)).2 then 1 else 0 : Nat) : Int)⟩
def dJ (J : JIT K) (k : Nat) : DJ := ⟨(dPair J.R k).1, (dPair J.R k).2, (J.aot.D k).nrow, (J.aot.D k).ncol⟩

/-- The coordinate lines can be parsed when all bit patterns have sixteen digits. -/
theorem coordLine_some (F : Fmt K) (dim : Nat) (c : Nat → K) (i : Nat) (h : ∀ j < dim, F.bits (c (i * dim + j)) < 2 ^ 64 ∧ 2 ^ 60 ≤ F.bits (c (i * dim + j))) :
    (List.range dim).mapM (fieldHex (coordLine F dim c i)) = some ((List.range dim).map fun j => F.bits (c (i * dim + j))) := by
  apply mapM_some
  intro j hj
  rw [List.mem_range] at hj
  unfold fieldHex coordLine
  simp only [List.getElem?_map, List.getElem?_range hj, Option.map_some]
  rw [hexToDouble_hexDigits _ (h j hj).1, if_pos (h j hj).2]

theorem coordLine_none (F : Fmt K) (dim : Nat) (c : Nat → K) (i j : Nat) (hj : j < dim) (h : F.bits (c (i * dim + j)) < 2 ^ 60) :
    (List.range dim).mapM (fieldHex (coordLine F dim c i)) = none := by
  apply mapM_none _ _ j (List.mem_range.2 hj)
  unfold fieldHex coordLine
  simp only [List.getElem?_map, List.getElem?_range hj, Option.map_some]
  rw [hexToDouble_hexDigits _ (lt_trans h (by norm_num)), if_neg (by omega)]

def metaJ (H : Mtx K) : MetaJson :=
  let R := H.J.R
  ⟨R.size, R.size, 1, R.arr.nNode, R.arr.nNode, (R.arr.nNode - 1 : Nat), (R.arr.nNode - 1 : Nat), (R.arr.maxLevel + 1 : Nat), (R.arr.maxLevel + 1 : Nat),
    (R.inadm.length : Int) + (R.arr.nLeaf : Int), R.adm.length, (hasPart R : Nat),
    (List.range R.arr.nNode).map (nodeJ R.arr), (List.range R.arr.nNode).map (uJ R.U), (List.range R.adm.length).map (bJ H.J),
    (List.range (R.arr.nLeaf + R.inadm.length)).map (dJ H.J)⟩

def auxJ (F : Fmt K) (H : Mtx K) (c : Nat → K) (tol : K) : AuxJson K :=
  let R := H.J.R
  ⟨some H.ptDim, some R.kdim, some R.nPoint, some ((if H.isHSS then 1 else 0 : Nat) : Int), some R.minAdm, some H.maxLeaf, some tol, some 1,
    some ((List.range R.nPoint).map fun i => (List.range H.ptDim).map fun j => F.bits (c (i * H.ptDim + j))).flatten,
    some ((List.range R.nPoint).map fun i => (R.coordIdx i : Int)), some ((List.range R.arr.nNode).map (skelJ H.skel))⟩

theorem countP_leaf (A : Arr K) (n : Nat) (hl : A.nLeaf = ((List.range n).filter (fun v => A.nChild v = 0)).length) :
    ((List.range n).map (nodeJ A)).countP (fun v => decide (v.nChild = 0)) = A.nLeaf := by
  rw [hl, List.countP_map, List.countP_eq_length_filter]
  congr 1
  apply List.filter_congr
  intro v _
  simp [nodeJ]

theorem header_length (H : Mtx K) : (header H).length = 17 := rfl

theorem obind {α β : Type} (a : α) (f : α → Option β) : (some a >>= f) = f a := rfl

/-- The conversion of the stored text: it succeeds iff all bit patterns have sixteen digits. -/
theorem txtToJson_txt (F : Fmt K) (H : Mtx K) (c : Nat → K) (tol : K)
    (hl : H.J.R.arr.nLeaf = ((List.range H.J.R.arr.nNode).filter (fun v => H.J.R.arr.nChild v = 0)).length) :
    ((∀ i < H.J.R.nPoint, ∀ j < H.ptDim, F.bits (c (i * H.ptDim + j)) < 2 ^ 64 ∧ 2 ^ 60 ≤ F.bits (c (i * H.ptDim + j))) →
      txtToJson (txt F H c tol) = some (metaJ H, auxJ F H c tol)) ∧
    ((∃ i < H.J.R.nPoint, ∃ j < H.ptDim, F.bits (c (i * H.ptDim + j)) < 2 ^ 60) → txtToJson (txt F H c tol) = none) := by
  set R := H.J.R with hR
  generalize hT : txt F H c tol = T
  have hT' := hT
  unfold txt at hT'
  rw [← hR] at hT'
  set hd := header H with hhd
  set l1 := (List.range R.arr.nNode).map (nodeLine R.arr) with h1
  set l2 := (List.range R.arr.nNode).map (uLine R.U) with h2
  set l3 := (List.range R.adm.length).map (bLine H.J) with h3
  set l4 := (List.range (R.arr.nLeaf + R.inadm.length)).map (dLine H.J) with h4
  set l5 : List (Line K) := [[.nat H.maxLeaf], [.exp tol], [.nat 1]] with h5
  set l6 := (List.range R.nPoint).map (coordLine F H.ptDim c) with h6
  set l7 := (List.range R.nPoint).map (fun i => [(Tok.nat (R.coordIdx i) : Tok K)]) with h7
  set l8 := (List.range R.arr.nNode).map (skelLine (K := K) H.skel) with h8
  have n0 : hd.length = 17 := rfl
  have n1 : l1.length = R.arr.nNode := by rw [h1, List.length_map, List.length_range]
  have n2 : l2.length = R.arr.nNode := by rw [h2, List.length_map, List.length_range]
  have n3 : l3.length = R.adm.length := by rw [h3, List.length_map, List.length_range]
  have n4 : l4.length = R.arr.nLeaf + R.inadm.length := by rw [h4, List.length_map, List.length_range]
  have n5 : l5.length = 3 := rfl
  have n6 : l6.length = R.nPoint := by rw [h6, List.length_map, List.length_range]
  have n7 : l7.length = R.nPoint := by rw [h7, List.length_map, List.length_range]
  have hdr : ∀ k, k < 17 → (T[k]? >>= lineInt) = (hd[k]? >>= lineInt) := by
    intro k hk
    rw [← hT']
    simp only [List.append_assoc]
    rw [List.getElem?_append_left (by omega)]
  have r1 : rows T 17 R.arr.nNode parseNode = some ((List.range R.arr.nNode).map (nodeJ R.arr)) :=
    rows_range (pre := hd) (post := l2 ++ l3 ++ l4 ++ l5 ++ l6 ++ l7 ++ l8) _ (by rw [← hT', h1]; simp only [List.append_assoc]) n0.symm (fun i _ => parseNode_eq _ i)
  have r2 : rows T (17 + R.arr.nNode) R.arr.nNode parseU = some ((List.range R.arr.nNode).map (uJ R.U)) :=
    rows_range (pre := hd ++ l1) (post := l3 ++ l4 ++ l5 ++ l6 ++ l7 ++ l8) (enc := uLine R.U) _ (by rw [← hT', h2]; simp only [List.append_assoc])
      (by rw [List.length_append, n0, n1]) (fun i _ => rfl)
  have r3 : rows T (17 + R.arr.nNode + R.arr.nNode) R.adm.length parseB = some ((List.range R.adm.length).map (bJ H.J)) :=
    rows_range (pre := hd ++ l1 ++ l2) (post := l4 ++ l5 ++ l6 ++ l7 ++ l8) (enc := bLine H.J) _ (by rw [← hT', h3]; simp only [List.append_assoc])
      (by simp only [List.length_append, n0, n1, n2]) (fun i _ => rfl)
  have r4 : rows T (17 + R.arr.nNode + R.arr.nNode + R.adm.length) (R.arr.nLeaf + R.inadm.length) parseD =
      some ((List.range (R.arr.nLeaf + R.inadm.length)).map (dJ H.J)) :=
    rows_range (pre := hd ++ l1 ++ l2 ++ l3) (post := l5 ++ l6 ++ l7 ++ l8) (enc := dLine H.J) _ (by rw [← hT', h4]; simp only [List.append_assoc])
      (by simp only [List.length_append, n0, n1, n2, n3]) (fun i _ => rfl)
  set q := 17 + R.arr.nNode + R.arr.nNode + R.adm.length + (R.arr.nLeaf + R.inadm.length) with hq
  have hsm : ∀ k, k < 3 → T[q + k]? = l5[k]? := by
    intro k hk
    rw [← hT']
    simp only [List.append_assoc]
    rw [← List.append_assoc, ← List.append_assoc, ← List.append_assoc, ← List.append_assoc,
      List.getElem?_append_right (by simp only [List.length_append, n0, n1, n2, n3, n4]; omega), List.getElem?_append_left (by
        simp only [List.length_append, n0, n1, n2, n3, n4, n5]; omega)]
    congr 1
    simp only [List.length_append, n0, n1, n2, n3, n4]; omega
  have hq0 : T[q]? >>= lineInt = some (H.maxLeaf : Int) := by rw [← Nat.add_zero q, hsm 0 (by omega)]; rfl
  have hq1 : T[q + 1]? >>= lineExp = some tol := by rw [hsm 1 (by omega)]; rfl
  have hq2 : T[q + 2]? >>= lineInt = some 1 := by rw [hsm 2 (by omega)]; rfl
  have e6 : T = (hd ++ l1 ++ l2 ++ l3 ++ l4 ++ l5) ++ (List.range R.nPoint).map (coordLine F H.ptDim c) ++ (l7 ++ l8) := by
    rw [← hT', h6]; simp only [List.append_assoc]
  have ec : q + 3 = (hd ++ l1 ++ l2 ++ l3 ++ l4 ++ l5).length := by simp only [List.length_append, n0, n1, n2, n3, n4, n5, hq]
  have r7 : rows T (q + 3 + R.nPoint) R.nPoint lineInt = some ((List.range R.nPoint).map fun i => (R.coordIdx i : Int)) :=
    rows_range (pre := hd ++ l1 ++ l2 ++ l3 ++ l4 ++ l5 ++ l6) (post := l8) _ (by rw [← hT', h7])
      (by rw [List.length_append, ← ec, n6]) (fun i _ => rfl)
  have r8 : rows T (q + 3 + R.nPoint + R.nPoint) R.arr.nNode parseSkel = some ((List.range R.arr.nNode).map (skelJ H.skel)) :=
    rows_range (pre := hd ++ l1 ++ l2 ++ l3 ++ l4 ++ l5 ++ l6 ++ l7) (post := []) (enc := skelLine H.skel) _ (by rw [← hT', h8]; simp)
      (by rw [List.length_append, List.length_append, ← ec, n6, n7]) (fun i _ => parseSkel_eq _ i)
  have step : txtToJson T = (rows T (q + 3) R.nPoint (fun l => (List.range H.ptDim).mapM (fieldHex l))).bind fun coord =>
      some (metaJ H, { auxJ F H c tol with coord := some coord.flatten }) := by
    unfold txtToJson
    dsimp only
    rw [hdr 0 (by omega), hdr 1 (by omega), hdr 2 (by omega), hdr 3 (by omega), hdr 4 (by omega), hdr 5 (by omega), hdr 6 (by omega), hdr 7 (by omega),
      hdr 8 (by omega), hdr 9 (by omega), hdr 10 (by omega), hdr 11 (by omega), hdr 12 (by omega), hdr 13 (by omega), hdr 14 (by omega), hdr 15 (by omega), hdr 16 (by omega)]
    rw [show (hd[0]? >>= lineInt) = some (H.ptDim : Int) from rfl, show (hd[1]? >>= lineInt) = some (R.kdim : Int) from rfl,
      show (hd[2]? >>= lineInt) = some (R.nPoint : Int) from rfl, show (hd[3]? >>= lineInt) = some (R.size : Int) from rfl,
      show (hd[4]? >>= lineInt) = some (R.size : Int) from rfl, show (hd[5]? >>= lineInt) = some 1 from rfl,
      show (hd[6]? >>= lineInt) = some (R.arr.nNode : Int) from rfl, show (hd[7]? >>= lineInt) = some (R.arr.nNode : Int) from rfl,
      show (hd[8]? >>= lineInt) = some ((R.arr.nNode - 1 : Nat) : Int) from rfl, show (hd[9]? >>= lineInt) = some ((R.arr.nNode - 1 : Nat) : Int) from rfl,
      show (hd[10]? >>= lineInt) = some ((R.arr.maxLevel + 1 : Nat) : Int) from rfl, show (hd[11]? >>= lineInt) = some ((R.arr.maxLevel + 1 : Nat) : Int) from rfl,
      show (hd[12]? >>= lineInt) = some ((if H.isHSS then 1 else 0 : Nat) : Int) from rfl, show (hd[13]? >>= lineInt) = some (R.minAdm : Int) from rfl,
      show (hd[14]? >>= lineInt) = some (R.inadm.length : Int) from rfl, show (hd[15]? >>= lineInt) = some (R.adm.length : Int) from rfl,
      show (hd[16]? >>= lineInt) = some ((hasPart R : Nat) : Int) from rfl]
    iterate 17 rw [obind]
    simp only [Int.toNat_natCast]
    rw [r1, obind, countP_leaf _ _ hl, show ((R.inadm.length : Int) + (R.arr.nLeaf : Int)).toNat = R.arr.nLeaf + R.inadm.length by omega, r2, obind, r3, obind, r4, obind, ← hq, hq0, obind, hq1, obind, hq2, obind]
    simp only [Option.bind_eq_bind]
    congr 1
    funext coord
    rw [r7]
    simp only [Option.bind_some]
    rw [r8]
    rfl
  constructor
  · intro hc
    rw [step, rows_range (fun i => (List.range H.ptDim).map fun j => F.bits (c (i * H.ptDim + j))) e6 ec (fun i hi => coordLine_some F _ c i (hc i hi))]
    rfl
  · rintro ⟨i, hi, j, hj, h⟩
    rw [step, rows_none e6 ec i hi (coordLine_none F _ c i j hj h)]
    rfl

theorem mapM_getElem {β : Type} (n : Nat) (g : Nat → β) : (List.range n).mapM (fun i => ((List.range n).map g)[i]?) = some ((List.range n).map g) := by
  apply mapM_some
  intro i hi
  rw [List.mem_range] at hi
  simp [hi]

theorem flatten_get {β : Type} (n d : Nat) (g : Nat → Nat → β) : ∀ i < n, ∀ j < d, ((List.range n).map fun i => (List.range d).map (g i)).flatten[i * d + j]? = some (g i j) := by
  induction n with
  | zero => intro i hi; omega
  | succ n ih =>
    intro i hi j hj
    rw [List.range_succ, List.map_append, List.flatten_append]
    have hlen : ((List.range n).map fun i => (List.range d).map (g i)).flatten.length = n * d := by
      simp [List.length_flatten, Function.comp_def]
    by_cases h : i < n
    · rw [List.getElem?_append_left, ih i h j hj]
      rw [hlen]
      have := Nat.mul_le_mul_right d (show i + 1 ≤ n by omega)
      rw [Nat.add_mul] at this; omega
    · have : i = n := by omega
      subst this
      rw [List.getElem?_append_right (by omega), hlen, Nat.add_sub_cancel_left]
      simp [hj]

/-- The conversion back to text. -/
theorem jsonToTxt_eq (F : Fmt K) (zero : K) (H : Mtx K) (c : Nat → K) (tol : K) (hmc : H.J.R.arr.maxChild = 2 ^ H.ptDim)
    (hl : H.J.R.arr.nLeaf = ((List.range H.J.R.arr.nNode).filter (fun v => H.J.R.arr.nChild v = 0)).length) :
    jsonToTxt F zero (metaJ H) (auxJ F H c tol) = some (txt F H c (F.e6 tol)) := by
  unfold jsonToTxt
  set R := H.J.R with hR
  have p1 : ((List.range R.arr.nNode).map (nodeJ R.arr)).mapM (printNode (K := K) (2 ^ H.ptDim)) = some ((List.range R.arr.nNode).map (nodeLine R.arr)) := by
    rw [mapM_some _ _ (fun v => ([.int v.index, .int v.level, .int v.head, .int v.tail, .int v.nChild] ++ v.children.map .int ++
      (List.range' v.nChild.toNat (2 ^ H.ptDim - v.nChild.toNat)).map fun _ => .int (-1)))]
    · rw [List.map_map]
      congr 1
      apply List.map_congr_left
      intro i _
      simp only [Function.comp_def, nodeJ, nodeLine, Tok.nat, Int.toNat_natCast, List.map_map, hmc]
    · intro v hv
      obtain ⟨i, _, rfl⟩ := List.mem_map.1 hv
      unfold printNode
      simp only [nodeJ, Int.toNat_natCast]
      rw [mapM_getElem]
      rfl
  have p2 : (List.range R.nPoint).mapM (fun i => (List.range H.ptDim).mapM fun j =>
      ((((List.range R.nPoint).map fun i => (List.range H.ptDim).map fun j => F.bits (c (i * H.ptDim + j))).flatten)[i * H.ptDim + j]?).map fun b => (Tok.hex (hexDigits b) : Tok K)) =
      some ((List.range R.nPoint).map (coordLine F H.ptDim c)) := by
    apply mapM_some
    intro i hi
    unfold coordLine
    apply mapM_some
    intro j hj
    rw [List.mem_range] at hi hj
    rw [flatten_get _ _ (fun i j => F.bits (c (i * H.ptDim + j))) i hi j hj]
    rfl
  have p3 : (List.range R.nPoint).mapM (fun i => (((List.range R.nPoint).map fun i => (R.coordIdx i : Int))[i]?).map fun p => [(Tok.int p : Tok K)]) =
      some ((List.range R.nPoint).map fun i => [.nat (R.coordIdx i)]) := by
    apply mapM_some
    intro i hi
    rw [List.mem_range] at hi
    simp [hi, Tok.nat]
  have p4 : (List.range R.arr.nNode).mapM (fun i => ((List.range R.arr.nNode).map (skelJ H.skel))[i]? >>= printSkel (K := K)) =
      some ((List.range R.arr.nNode).map (skelLine H.skel)) := by
    apply mapM_some
    intro i hi
    rw [List.mem_range] at hi
    simp only [List.getElem?_map, List.getElem?_range hi, Option.map_some]
    show printSkel (skelJ H.skel i) = _
    unfold printSkel skelJ
    simp only [Int.toNat_natCast]
    have : (List.range (H.skel i).length).mapM (fun j => ((H.skel i).map fun v : Nat => (v : Int))[j]?) = some ((H.skel i).map fun v : Nat => (v : Int)) := by
      rw [mapM_some _ _ (fun j => (((H.skel i).getD j 0 : Nat) : Int)) (by intro j hj; rw [List.mem_range] at hj; simp [hj])]
      congr 1
      apply List.ext_getElem
      · simp
      · intro k h1 h2
        simp at h1
        simp [h1]
    rw [this]
    simp [skelLine, Tok.nat, Function.comp_def]
  have hM : metaJ H = ⟨R.size, R.size, 1, R.arr.nNode, R.arr.nNode, (R.arr.nNode - 1 : Nat), (R.arr.nNode - 1 : Nat), (R.arr.maxLevel + 1 : Nat), (R.arr.maxLevel + 1 : Nat),
    (R.inadm.length : Int) + (R.arr.nLeaf : Int), R.adm.length, (hasPart R : Nat),
    (List.range R.arr.nNode).map (nodeJ R.arr), (List.range R.arr.nNode).map (uJ R.U), (List.range R.adm.length).map (bJ H.J),
    (List.range (R.arr.nLeaf + R.inadm.length)).map (dJ H.J)⟩ := rfl
  rw [hM]
  unfold auxJ
  dsimp only
  simp only [Option.getD_some, Int.toNat_natCast]
  rw [← hR, show ((R.inadm.length : Int) + (R.arr.nLeaf : Int)).toNat = R.arr.nLeaf + R.inadm.length by omega]
  rw [mapM_getElem]
  simp only [Option.bind_eq_bind, Option.bind_some]
  rw [p1]
  simp only [Option.bind_some]
  rw [mapM_getElem, mapM_getElem, mapM_getElem]
  simp only [Option.bind_some]
  rw [p2]
  simp only [Option.bind_some]
  rw [p3]
  simp only [Option.bind_some, if_true]
  simp only [Option.bind_eq_bind] at p4
  rw [p4]
  simp only [Option.bind_some]
  rw [countP_leaf _ _ hl, Int.add_sub_cancel]
  simp only [List.map_map]
  rfl

end

end H2Pack.IO
