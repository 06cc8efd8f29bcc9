import Verif.Model.ULV
import Verif.Model.AdmPairs
import Verif.Model.CSR
import Mathlib.Analysis.SpecialFunctions.Pow.NNReal

/-!
# Building an SPD HSS matrix from an H2 matrix (src/H2Pack_SPDHSS_H2.c:532-2282)

Exact real arithmetic.  POTRF is the one of `ULV.Lapack`; SYEVD, GEQPF and ORGQR are parameters (`Lapack2`; what they have to satisfy
is stated in Spec/SPDHSS.lean); GEMM is a sum, TRSM is forward substitution.  A matrix is its number of rows, of columns and its
entries; all matrices of this file are allocated with leading dimension = number of columns, so the tests `ld == 0` / `ld > 0` are tests
of the number of columns.  `none` is `NULL`.  Dereferencing `NULL` and failed assertions are `ub`.

The array `HSS_B` with the index `HSS_B_p2i_*` (a CSR matrix whose values are positions, 0 for "removed") is a pair of functions of the two
nodes: `idx a b` says that the lookup gives a nonzero value, `B a b` is the matrix at that position.  (The CSR functions
themselves are in `CSR`; the pairs entered are different, `C58_level_pairs`.)

The nodes of a level, and then the pairs of a level, are handled in an arbitrary order.  An iteration writes only what belongs to its
own node or pair and destroys only what belongs to the children (pairs of children) of it.  `junk v` are the contents of the buffer
`mat0` of the thread that handles node `v`.  Timers, statistics, messages and allocation failures are left out.
-/

namespace H2Pack.SPD
open H2Pack.MV (Mat Rep Blk)
open H2Pack.ULV (fsub mulTL mulR putBlock child deref blkMat loop Lapack)
open H2Pack.Part (Arr kids Pairs)

noncomputable section

/-- `LAPACKE_dsyevd('V', 'U', n, a)`: `info`, the overwritten matrix and the eigenvalues; `LAPACKE_dgeqpf(m, n, a)`: the overwritten
matrix and `tau` (`jpvt` is not used); `LAPACKE_dorgqr(m, k, k, a, tau)`: the overwritten matrix. -/
structure Lapack2 where
  syevd : Nat → (Nat → Nat → ℝ) → Nat × (Nat → Nat → ℝ) × (Nat → ℝ)
  geqpf : Nat → Nat → (Nat → Nat → ℝ) → (Nat → Nat → ℝ) × (Nat → ℝ)
  orgqr : Nat → Nat → (Nat → Nat → ℝ) → (Nat → ℝ) → Nat → Nat → ℝ

/-- The arguments of `H2P_SPDHSS_H2_build`, the libraries and the buffers. -/
structure Params where
  lp : Lapack ℝ
  lq : Lapack2
  maxRank : Nat
  reltol : ℝ
  shift : ℝ
  junk : Nat → Nat → Nat → ℝ

/-- The working arrays of `H2P_SPDHSS_H2_build` (lines 1672-1697); `Y v l` is `Yk[v * max_level + l]`. -/
structure St where
  S : Nat → Option (Mat ℝ)
  V : Nat → Option (Mat ℝ)
  W : Nat → Option (Mat ℝ)
  Minv : Nat → Option (Mat ℝ)
  U : Nat → Option (Mat ℝ)
  Y : Nat → Nat → Option (Mat ℝ)
  B : Nat → Nat → Option (Mat ℝ)
  idx : Nat → Nat → Bool
  spd : Bool

/-! ## BLAS -/

/-- GEMM, no transposition, then transposition: `a b'`. -/
def mulNT (n : Nat) (a b : Nat → Nat → ℝ) : Nat → Nat → ℝ := fun i j => ∑ t ∈ Finset.range n, a i t * b j t

/-- TRSM left, lower, no transposition: `S X = b`. -/
def trsmL (s b : Nat → Nat → ℝ) : Nat → Nat → ℝ := fun i j => fsub false s (fun r => b r j) i

/-- TRSM right, lower, transposition: `X S' = b`. -/
def trsmR (s b : Nat → Nat → ℝ) : Nat → Nat → ℝ := fun i j => fsub false s (fun c => b i c) j

/-! ## Lookups and lists of matrices -/

/-- The pointer must not be `NULL`. -/
def need {α : Type} (m : Option (Mat ℝ)) (k : Mat ℝ → Res α) : Res α :=
  match m with
  | none => .ub
  | some m => k m

/-- `HSS_B[HSS_B_p2i(a, b) - 1]`; the lookup is asserted to be nonzero. -/
def lookB (st : St) (a b : Nat) : Option (Mat ℝ) := if st.idx a b then st.B a b else none

/-- The matrices behind a list of pointers; one of them `NULL`: `ub`. -/
def needAll : List (Option (Mat ℝ)) → Res (List (Mat ℝ))
  | [] => .ok []
  | none :: _ => .ub
  | some m :: ms => do
    let ms ← needAll ms
    .ok (m :: ms)

/-- src/H2Pack_aux_structs.c:346-370 `H2P_dense_mat_vertcat`: the new contents of `new_mat` (nothing happens when the numbers of
columns differ). -/
def vertcat (ms : List (Mat ℝ)) (old : Mat ℝ) : Mat ℝ :=
  if ms.all fun m => m.ncol = (ms.headD ⟨0, 0, fun _ _ => 0⟩).ncol then
    ⟨(ms.map Mat.nrow).sum, (ms.headD ⟨0, 0, fun _ _ => 0⟩).ncol,
      (ms.foldl (fun (s : Nat × (Nat → Nat → ℝ)) m => (s.1 + m.nrow, putBlock s.1 0 m.nrow m.ncol m.e s.2)) (0, fun _ _ => 0)).2⟩
  else old

/-- src/H2Pack_SPDHSS_H2.c:586-606: one block row of the loop "gather each block". -/
def gatherRow (srow : Nat) (row : List (Mat ℝ)) (e : Nat → Nat → ℝ) : (Nat → Nat → ℝ) × Nat × Nat :=
  row.foldl (fun s m => (putBlock srow s.2.1 m.nrow m.ncol m.e s.1, s.2.1 + m.ncol, m.nrow)) (e, 0, 0)

/-- src/H2Pack_SPDHSS_H2.c:541-608 `H2P_SPDHSS_H2_gather_HSS_B`: `tmpB`; `none` when it returns early with `tmpB->nrow == 0`. -/
def gatherB (st : St) (blk0 blk1 : List Nat) : Res (Option (Mat ℝ)) := do
  let rows ← loop (fun (acc : List (List (Mat ℝ))) i => do
    let r ← needAll (blk1.map fun j => lookB st i j)
    .ok (acc ++ [r])) blk0 []
  match rows with
  | [] => .ub
  | row0 :: _ =>
    match row0 with
    | [] => .ub
    | b00 :: _ =>
      if (rows.all fun r => (r.headD b00).ncol = b00.ncol) ∧ (row0.all fun m => m.nrow = b00.nrow) then   -- lines 559-566, 575-582
        let nrow := (rows.map fun r => (r.headD b00).nrow).sum                                            -- line 567
        let ncol := (row0.map Mat.ncol).sum                                                               -- line 583
        let e := (rows.foldl (fun (s : Nat × (Nat → Nat → ℝ)) r =>
          let g := gatherRow s.1 r s.2
          (s.1 + g.2.2, g.1)) (0, fun _ _ => 0)).2
        .ok (some ⟨nrow, ncol, e⟩)
      else .ok none

/-- src/H2Pack_SPDHSS_H2.c:619-636 `H2P_SPDHSS_H2_clean_HSS_B`. -/
def cleanB (blk0 blk1 : List Nat) (st : St) : Res St :=
  loop (fun st i => loop (fun (st : St) j =>
    if st.idx i j then
      .ok { st with
        B := Function.update st.B i (Function.update (st.B i) j none)
        idx := Function.update st.idx i (Function.update (st.idx i) j false) }
    else .ub) blk1 st) blk0 st

/-! ## One B block -/

/-- `H2P_dense_mat_init(&HSS_B[HSS_B_idx], ...)` / the final `HSS_Bij`. -/
def setB (st : St) (a b : Nat) (m : Mat ℝ) : St := { st with B := Function.update st.B a (Function.update (st.B a) b (some m)) }

/-- A block fetched from the H2 matrix; the "Bug in case" message and return when its number of rows is 0. -/
def fetch (get : Nat → Nat → Option (Blk ℝ)) (a b : Nat) (bug : St) (k : Mat ℝ → Res St) : Res St :=
  match get a b with
  | none => .ok bug
  | some x => if x.nrow = 0 then .ok bug else k (blkMat x)

/-- A gathered block; the "Bug in case" message and return when its number of rows is 0. -/
def gathered (st : St) (blk0 blk1 : List Nat) (bug : St) (k : Mat ℝ → Res St) : Res St := do
  match ← gatherB st blk0 blk1 with
  | none => .ok bug
  | some m => if m.nrow = 0 then .ok bug else k m

/-- src/H2Pack_SPDHSS_H2.c:647-1105 `H2P_SPDHSS_H2_calc_HSS_Bij`; `adm a b` is the outcome of the box test of line 670. -/
def calcB (R : Rep ℝ) (adm : Nat → Nat → Bool) (getB getD : Nat → Nat → Option (Blk ℝ)) (st : St) (x : Nat × Nat) : Res St :=
  let n0 := x.1
  let n1 := x.2
  let l0 := R.arr.level n0
  let l1 := R.arr.level n1
  let c0 := R.arr.nChild n0
  let c1 := R.arr.nChild n1
  if st.idx n0 n1 = false then .ub                                                       -- line 674
  else
  let bug := setB st n0 n1 ⟨0, 0, fun _ _ => 0⟩                                          -- line 676
  if l0 = l1 then
    if adm n0 n1 then fetch getB n0 n1 bug fun b =>                                      -- 1.1
      need (st.W n0) fun w0 => need (st.W n1) fun w1 =>
      let tmpM := mulNT b.ncol b.e w1.e                                                  -- lines 693-696
      .ok (setB st n0 n1 ⟨w0.nrow, w1.nrow, mulR w0.ncol w0.e tmpM⟩)                     -- lines 698-701
    else if c0 = 0 ∧ c1 = 0 then fetch getD n0 n1 bug fun d =>                           -- 1.2
      need (st.S n0) fun s0 => need (st.S n1) fun s1 => need (st.V n0) fun v0 => need (st.V n1) fun v1 =>
      let h := trsmL s0.e d.e                                                            -- lines 726-729
      let tmpM := mulTL v0.nrow v0.e h                                                   -- lines 731-734
      let tmpM := trsmR s1.e tmpM                                                        -- lines 738-741
      .ok (setB st n0 n1 ⟨v0.ncol, v1.ncol, mulR d.ncol tmpM v1.e⟩)                      -- lines 743-746
    else if 0 < c0 ∧ 0 < c1 then gathered bug (kids R.arr n0) (kids R.arr n1) bug fun b =>   -- 1.3
      need (st.V n0) fun v0 => need (st.V n1) fun v1 => need (st.Minv n0) fun m0 => need (st.Minv n1) fun m1 =>
      let t0 := mulR m1.ncol m1.e v1.e                                                   -- lines 776-779
      let t1 := mulR b.ncol b.e t0                                                       -- lines 781-784
      let t0 := mulR m0.ncol m0.e t1                                                     -- lines 786-789
      cleanB (kids R.arr n0) (kids R.arr n1) (setB st n0 n1 ⟨v0.ncol, v1.ncol, mulTL v0.nrow v0.e t0⟩)   -- lines 791-798
    else if 0 < c0 ∧ c1 = 0 then gathered bug (kids R.arr n0) [n1] bug fun b =>          -- 1.4
      need (st.V n0) fun v0 => need (st.V n1) fun v1 => need (st.S n1) fun s1 => need (st.Minv n0) fun m0 =>
      let t0 := mulR m0.ncol m0.e b.e                                                    -- lines 827-830
      let t1 := mulTL v0.nrow v0.e t0                                                    -- lines 832-835
      let t1 := trsmR s1.e t1                                                            -- lines 839-842
      cleanB (kids R.arr n0) [n1] (setB st n0 n1 ⟨v0.ncol, v1.ncol, mulR b.ncol t1 v1.e⟩)   -- lines 844-851
    else gathered bug [n0] (kids R.arr n1) bug fun b =>                                  -- 1.5
      need (st.V n0) fun v0 => need (st.V n1) fun v1 => need (st.S n0) fun s0 => need (st.Minv n1) fun m1 =>
      let t0 := mulR m1.ncol m1.e v1.e                                                   -- lines 879-882
      let t1 := mulR b.ncol b.e t0                                                       -- lines 884-887
      let t1 := trsmL s0.e t1                                                            -- lines 889-892
      cleanB [n0] (kids R.arr n1) (setB st n0 n1 ⟨v0.ncol, v1.ncol, mulTL v0.nrow v0.e t1⟩)   -- lines 894-901
  else if l1 < l0 then
    if 0 < c1 then .ok bug                                                               -- lines 909-913
    else if adm n0 n1 then fetch getB n0 n1 bug fun b =>                                 -- 2.1
      need (st.W n0) fun w0 =>
      .ok (setB st n0 n1 ⟨w0.nrow, b.ncol, mulR w0.ncol w0.e b.e⟩)                       -- lines 929-932
    else if c0 = 0 then fetch getD n0 n1 bug fun d =>                                    -- 2.2
      need (st.V n0) fun v0 => need (st.S n0) fun s0 =>
      let h := trsmL s0.e d.e                                                            -- lines 954-957
      .ok (setB st n0 n1 ⟨v0.ncol, d.ncol, mulTL v0.nrow v0.e h⟩)                        -- lines 959-962
    else gathered bug (kids R.arr n0) [n1] bug fun b =>                                  -- 2.3
      need (st.V n0) fun v0 => need (st.Minv n0) fun m0 =>
      let t := mulR m0.ncol m0.e b.e                                                     -- lines 987-990
      cleanB (kids R.arr n0) [n1] (setB st n0 n1 ⟨v0.ncol, b.ncol, mulTL v0.nrow v0.e t⟩)   -- lines 992-999
  else
    if 0 < c0 then .ok bug                                                               -- lines 1007-1011
    else if adm n0 n1 then fetch getB n0 n1 bug fun b =>                                 -- 3.1
      need (st.W n1) fun w1 =>
      .ok (setB st n0 n1 ⟨b.nrow, w1.nrow, mulNT b.ncol b.e w1.e⟩)                       -- lines 1028-1031
    else if c1 = 0 then fetch getD n0 n1 bug fun d =>                                    -- 3.2
      need (st.V n1) fun v1 => need (st.S n1) fun s1 =>
      let h := trsmR s1.e d.e                                                            -- lines 1055-1058
      .ok (setB st n0 n1 ⟨d.nrow, v1.ncol, mulR d.ncol h v1.e⟩)                          -- lines 1060-1063
    else gathered bug [n0] (kids R.arr n1) bug fun b =>                                  -- 3.3
      need (st.V n1) fun v1 => need (st.Minv n1) fun m1 =>
      let t := mulR m1.ncol m1.e v1.e                                                    -- lines 1088-1091
      cleanB [n0] (kids R.arr n1) (setB st n0 n1 ⟨b.nrow, v1.ncol, mulR b.ncol b.e t⟩)   -- lines 1093-1100

/-! ## One node -/

/-- src/H2Pack_SPDHSS_H2.c:1872-1884 (2087-2099): the final `V_ncol`, from the diagonal `d` of the factor `R` and
`n = min(nrow, ncol, max_rank)`. -/
def vCols (reltol : ℝ) (n : Nat) (d : Nat → ℝ) : Nat :=
  match (List.range n).find? fun k => |d k| < |d 0| * reltol with
  | some k => if 1 < k then k - 1 else n
  | none => n

/-- src/H2Pack_SPDHSS_H2.c:1862-1887 (2077-2102): `V{node}` from the `m`-by-`n` matrix `tmpY`. -/
def basisV (P : Params) (m n : Nat) (tmpY : Nat → Nat → ℝ) : Mat ℝ :=
  let q := P.lq.geqpf m n tmpY
  ⟨m, vCols P.reltol (min (min m n) P.maxRank) (fun k => q.1 k k), P.lq.orgqr m (min m n) q.1 q.2⟩

/-- src/H2Pack_SPDHSS_H2.c:1900-1916 (2117-2144): `Yk{node}{k-1}` becomes `f Yk{node}{k}`, from `k` on, at most `n` times; also `last_k`. -/
def shiftY (f : Mat ℝ → Mat ℝ) : Nat → Nat → Nat → (Nat → Option (Mat ℝ)) → Res ((Nat → Option (Mat ℝ)) × Nat)
  | 0, _, last, Y => .ok (Y, last)
  | n+1, k, last, Y => need (Y k) fun y =>
    if y.ncol = 0 then .ok (Y, last)                                                     -- line 1902
    else need (Y (k - 1)) fun _ => shiftY f n (k + 1) k (Function.update Y (k - 1) (some (f y)))

/-- src/H2Pack_SPDHSS_H2.c:1828-1943: a leaf; `D` is its diagonal block with the shift. -/
def leafNode (P : Params) (R : Rep ℝ) (D : Mat ℝ) (st : St) (v : Nat) : Res St :=
  let f := P.lp.potrf D.nrow D.e                                                         -- line 1836
  let S : Mat ℝ := ⟨D.nrow, D.ncol, fun i j => if i < j then 0 else f.2 i j⟩             -- lines 1837-1842
  let st := { st with S := Function.update st.S v (some S) }
  if f.1 ≠ 0 then .ok { st with spd := false }                                           -- lines 1843-1848
  else need (st.Y v 0) fun y0 =>
    if y0.nrow ≠ S.nrow then .ub                                                         -- line 1855
    else do
      let V := basisV P y0.nrow y0.ncol (trsmL S.e y0.e)                                 -- lines 1860-1887
      let U : Mat ℝ := ⟨S.nrow, V.ncol, mulR S.ncol S.e V.e⟩                             -- lines 1889-1893
      let Y ← shiftY (fun y => ⟨V.ncol, y.ncol, mulTL V.nrow V.e (trsmL S.e y.e)⟩) (R.arr.maxLevel - 1) 1 0 (st.Y v)
      let st := { st with
        V := Function.update st.V v (some V)
        U := Function.update st.U v (some U)
        Y := Function.update st.Y v (Function.update Y.1 Y.2 none) }                     -- line 1917
      let hU := R.U v
      if 0 < hU.ncol then                                                                -- line 1922
        if hU.nrow = S.nrow then                                                         -- line 1927
          .ok { st with W := Function.update st.W v (some ⟨V.ncol, hU.ncol, mulTL V.nrow V.e (trsmL S.e hU.e)⟩) }
        else .ub
      else .ok st

/-- src/H2Pack_SPDHSS_H2.c:1946-1953: `offset[k]`. -/
def offs (R : Rep ℝ) (U : Nat → Option (Mat ℝ)) (v k : Nat) : Nat := ∑ j ∈ Finset.range k, (deref (U (child R v j))).ncol

/-- src/H2Pack_SPDHSS_H2.c:1957-1989: `tmpB`; the blocks below the diagonal are not set. -/
def tmpB (R : Rep ℝ) (st : St) (junk : Nat → Nat → ℝ) (v : Nat) : Nat → Nat → ℝ :=
  (List.range (R.arr.nChild v)).foldl (fun d k =>
    let d := (List.range' (k + 1) (R.arr.nChild v - (k + 1))).foldl (fun d l =>
      let b := deref (lookB st (child R v k) (child R v l))
      putBlock (offs R st.U v k) (offs R st.U v l) b.nrow b.ncol b.e d) d
    let n := offs R st.U v (k + 1) - offs R st.U v k
    putBlock (offs R st.U v k) (offs R st.U v k) n n (fun _ _ => 0) d) junk

/-- src/H2Pack_SPDHSS_H2.c:2046-2065: `Yk{node}{l}` for `l < node_level[node]`; the matrices of the children are destroyed. -/
def stackY (R : Rep ℝ) (v : Nat) : Nat → (Nat → Nat → Option (Mat ℝ)) → Res (Nat → Nat → Option (Mat ℝ)) := fun n Y =>
  loop (fun (Y : Nat → Nat → Option (Mat ℝ)) l => do
    let ms ← needAll ((kids R.arr v).map fun c => Y c l)
    need (Y v l) fun old =>
      let Y := Function.update Y v (Function.update (Y v) l (some (vertcat ms old)))
      .ok ((kids R.arr v).foldl (fun Y c => Function.update Y c (Function.update (Y c) l none)) Y)) (List.range n) Y

/-- src/H2Pack_SPDHSS_H2.c:2157-2189: `blkdiag(W{child_node}) * H2_U{node}`; also the number of rows. -/
def stackW (ws : List (Mat ℝ)) (hU : Mat ℝ) : Nat × (Nat → Nat → ℝ) :=
  let s := ws.foldl (fun (s : Nat × Nat × (Nat → Nat → ℝ)) w =>
    (s.1 + w.nrow, s.2.1 + w.ncol, putBlock s.1 0 w.nrow hU.ncol (mulR w.ncol w.e fun i j => hU.e (s.2.1 + i) j) s.2.2)) (0, 0, fun _ _ => 0)
  (s.1, s.2.2)

/-- src/H2Pack_SPDHSS_H2.c:2008-2044: `tmpQ * diag(g) * tmpQ'`. -/
def specM (n : Nat) (Q : Nat → Nat → ℝ) (g : Nat → ℝ) : Nat → Nat → ℝ := mulNT n (fun i j => Q i j * g j) Q

/-- src/H2Pack_SPDHSS_H2.c:1944-2220: a node with children. -/
def innerNode (P : Params) (R : Rep ℝ) (st : St) (v : Nat) : Res St :=
  if ((kids R.arr v).all fun c => (st.U c).isSome) ∧
     ((List.range (R.arr.nChild v)).all fun k => (List.range' (k + 1) (R.arr.nChild v - (k + 1))).all fun l =>
        (lookB st (child R v k) (child R v l)).isSome) then
    let m := offs R st.U v (R.arr.nChild v)
    let ev := P.lq.syevd m (tmpB R st (P.junk v) v)                                      -- line 1996
    if ev.1 ≠ 0 then .ok { st with spd := false }                                        -- lines 1997-2002
    else if (List.range m).any fun k => ev.2.2 k ≤ -1 then .ok { st with spd := false }  -- lines 2003-2011
    else do
      let s := fun k => √(1 + ev.2.2 k)                                                  -- lines 2015-2017
      let M := specM m ev.2.1 s                                                          -- lines 2018-2032
      let Mi := specM m ev.2.1 fun k => 1 / s k                                          -- lines 2033-2049
      let Y ← stackY R v (R.arr.level v) st.Y
      need (Y v 0) fun y0 =>
        if y0.nrow ≠ m then .ub                                                          -- line 2072
        else do
          let V := basisV P m y0.ncol (mulR m Mi y0.e)                                   -- lines 2077-2106
          let U : Mat ℝ := ⟨m, V.ncol, mulR m M V.e⟩                                     -- lines 2107-2112
          let Yv ← shiftY (fun y => ⟨V.ncol, y.ncol, mulTL V.nrow V.e (mulR m Mi y.e)⟩) (R.arr.maxLevel - 1) 1 0 (Y v)
          let st := { st with
            Minv := Function.update st.Minv v (some ⟨m, m, Mi⟩)
            V := Function.update st.V v (some V)
            U := Function.update st.U v (some U)
            Y := Function.update Y v (Function.update Yv.1 Yv.2 none) }
          let hU := R.U v
          if 0 < hU.ncol then do                                                         -- line 2153
            let ws ← needAll ((kids R.arr v).map st.W)
            if (ws.map Mat.ncol).sum = hU.nrow then                                      -- line 2166
              let t := stackW ws hU
              if t.1 = m then                                                            -- line 2193
                let W := Function.update st.W v (some ⟨V.ncol, hU.ncol, mulTL V.nrow V.e (mulR m Mi t.2)⟩)
                .ok { st with W := (kids R.arr v).foldl (fun w c => Function.update w c none) W }
              else .ub
            else .ub
          else .ok st
  else .ub

/-- src/H2Pack_SPDHSS_H2.c:1818-2222: one iteration of the loop over the nodes of a level. -/
def nodeStep (P : Params) (R : Rep ℝ) (D : Nat → Mat ℝ) (st : St) (v : Nat) : Res St :=
  if st.spd = false then .ok st                                                          -- line 1820
  else if R.arr.nChild v = 0 then leafNode P R (D v) st v
  else innerNode P R st v

/-- src/H2Pack_SPDHSS_H2.c:1796-2248: level `l`; the nodes and the pairs of the level come in the orders `ord l`, `pord l`. -/
def levelStep (P : Params) (R : Rep ℝ) (adm : Nat → Nat → Bool) (getB getD : Nat → Nat → Option (Blk ℝ)) (D : Nat → Mat ℝ) (ord : Nat → List Nat)
    (pord : Nat → List (Nat × Nat)) (st : St) (l : Nat) : Res St :=
  if st.spd = false then .ok st                                                          -- line 1802
  else do
    let st ← loop (nodeStep P R D) (ord l) st
    loop (calcB R adm getB getD) (pord l) st

/-- src/H2Pack_SPDHSS_H2.c:1761-1793 (step 5): `HSS_D` of a leaf. -/
def diagD (getD : Nat → Nat → Option (Blk ℝ)) (shift : ℝ) (v : Nat) : Mat ℝ :=
  match getD v v with
  | none => ⟨0, 0, fun _ _ => 0⟩
  | some b => ⟨b.nrow, b.ncol, fun i j => b.data (i * b.ncol + j) + if i = j then shift else 0⟩

/-- A leaf block can be used: it is found, it is stored by rows and it is square. -/
def diagOk (getD : Nat → Nat → Option (Blk ℝ)) (v : Nat) : Bool :=
  match getD v v with
  | none => false
  | some b => decide (b.ld = b.ncol ∧ b.nrow = b.ncol)

/-! ## The pairs of the levels -/

/-- The loops at lines 1148-1162, 1226-1238: the pairs of a list whose larger level is `l`. -/
def atLevel (A : Arr ℝ) (l : Nat) (L : List (Nat × Nat)) : List (Nat × Nat) := L.filter fun x => max (A.level x.1) (A.level x.2) = l

/-- src/H2Pack_SPDHSS_H2.c:1176-1181: the nodes on level `i + 1` are replaced with their parents. -/
def raise (A : Arr ℝ) (i : Nat) (x : Nat × Nat) : Nat × Nat :=
  let up := fun v => if A.level v = i + 1 then (A.parent v).toNat else v
  (up x.1, up x.2)

/-- src/H2Pack_SPDHSS_H2.c:1205-1219: the first pair of every group of equal keys; `curr_key` starts with -19241112. -/
def pickNew (pp : List (Nat × Nat)) (kv : H2Pack.CSR.KV) : Nat → Nat → Int → List (Nat × Nat) → List (Nat × Nat)
  | 0, _, _, acc => acc
  | n+1, k, cur, acc =>
    if cur ≠ kv.key k then pickNew pp kv n (k + 1) (kv.key k) (acc ++ [pp.getD (kv.val k).toNat (0, 0)])
    else pickNew pp kv n (k + 1) cur acc

/-- src/H2Pack_SPDHSS_H2.c:1183-1220: the different pairs of different nodes in `pp`, sorted.  `ub`: a key is not an `int`. -/
def uniquePairs (A : Arr ℝ) (fuel : Nat) (pp : List (Nat × Nat)) : Res (List (Nat × Nat)) :=
  let val := (List.range pp.length).filter fun k => (pp.getD k (0, 0)).1 ≠ (pp.getD k (0, 0)).2
  let key := fun k : Nat => ((pp.getD (val.getD k 0) (0, 0)).1 * A.nNode + (pp.getD (val.getD k 0) (0, 0)).2 : Int)
  if (List.range val.length).all fun k => decide (key k < 2^31) then
    if val.length = 0 then .ok []       -- `H2P_qsort_int_key_val(key, val, 0, -1)` reads `key[0]`, which is allocated, and changes nothing
    else do
      let kv ← H2Pack.CSR.qsort (κ := Int) (ν := Int) val.length fuel ⟨fun k => key k.toNat, fun k => val.getD k.toNat 0⟩ 0 ((val.length : Int) - 1)
      .ok (pickNew pp kv val.length 0 (-19241112) [])
  else .ub

/-- src/H2Pack_SPDHSS_H2.c:1107-1253 `H2P_SPDHSS_H2_get_level_HSS_Bij_pairs`: the pairs of level `max_level - d`. -/
def levelPairs (A : Arr ℝ) (pv : Pairs) (fuel : Nat) : Nat → Res (List (Nat × Nat))
  | 0 => .ok (atLevel A A.maxLevel pv.inadm ++ atLevel A A.maxLevel pv.adm)
  | d+1 => do
    let prev ← levelPairs A pv fuel d
    let i := A.maxLevel - (d + 1)
    let up ← uniquePairs A fuel (prev.map (raise A i))
    .ok (up ++ atLevel A i pv.inadm ++ atLevel A i pv.adm)

/-- src/H2Pack_SPDHSS_H2.c:1166-1243: the pairs of the levels `max_level, ..., 1`. -/
def allPairs (A : Arr ℝ) (pv : Pairs) (fuel : Nat) : Res (List (Nat × Nat)) :=
  loop (fun (acc : List (Nat × Nat)) d => do
    let L ← levelPairs A pv fuel d
    .ok (acc ++ L)) (List.range A.maxLevel) []

/-! ## The whole construction -/

/-- src/H2Pack_SPDHSS_H2.c:1264-1618 `H2P_SPDHSS_H2_wrap_new_HSS`: the new HSS matrix; `hss` and `mark` are `HSS_r_adm_pairs`,
`HSS_r_inadm_pairs`, `HSS_min_adm_level` and `node_n_r_inadm` of the H2 matrix. -/
def wrap (R : Rep ℝ) (hss : Pairs) (mark : Nat → Nat) (D : Nat → Mat ℝ) (st : St) : Res (Rep ℝ) :=
  if hss.adm.all fun x => (lookB st x.1 x.2).isSome then                                 -- lines 1447-1448
    .ok { arr := R.arr, nPoint := R.nPoint, kdim := R.kdim, coordIdx := R.coordIdx
          U := fun v => deref (st.U v)                                                   -- lines 1391-1412
          adm := hss.adm, inadm := hss.inadm
          B := fun i => deref (lookB st (hss.adm.getD i (0, 0)).1 (hss.adm.getD i (0, 0)).2)
          D := fun i => D (R.leaf i)
          minAdm := hss.minAdm, mark := mark }
  else .ub

/-- src/H2Pack_SPDHSS_H2.c:1672-1759: `S`, `V`, `W`, `Minv`, `HSS_U`, `HSS_B`, the indices of all pairs; `Y` comes from
`H2P_SPDHSS_H2_acc_matvec`. -/
def St.init (all : List (Nat × Nat)) (Y : Nat → Nat → Option (Mat ℝ)) : St where
  S := fun _ => none
  V := fun _ => none
  W := fun _ => none
  Minv := fun _ => none
  U := fun _ => none
  Y := Y
  B := fun _ _ => none
  idx := fun a b => decide ((a, b) ∈ all)
  spd := true

/-- src/H2Pack_SPDHSS_H2.c:1640-2256, from step 2 on: the new HSS matrix and `is_HSS_SPD`.  `Y` are the matrices `Yk` of step 1; `pv` the
reduced pairs of the H2 matrix, `hss` those for HSS. -/
def build (P : Params) (R : Rep ℝ) (pv hss : Pairs) (mark : Nat → Nat) (adm : Nat → Nat → Bool) (getB getD : Nat → Nat → Option (Blk ℝ))
    (ord : Nat → List Nat) (pord : Nat → List (Nat × Nat)) (Y : Nat → Nat → Option (Mat ℝ)) (fuel : Nat) : Res (Rep ℝ × Bool) := do
  let all ← allPairs R.arr pv fuel
  let D := diagD getD P.shift
  if (List.range R.arr.nLeaf).all fun i => diagOk getD (R.leaf i) then do
    let st ← loop (levelStep P R adm getB getD D ord pord) ((List.range R.arr.maxLevel).reverse.map (· + 1)) (St.init all Y)
    let H ← wrap R hss mark D st
    .ok (H, st.spd)
  else .ub

end

end H2Pack.SPD
