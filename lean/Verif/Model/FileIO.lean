import Verif.Model.Metadata
import Verif.Model.InadmLists
import Mathlib.Data.Nat.Digits.Defs

/-!
# Storing an H2 matrix to files and reading it back (src/H2Pack_file_IO.c, examples/meta_txt_to_json.py,
examples/meta_json_to_txt.py)

A text file is a list of lines, a line is a list of tokens separated by blanks.  The Python scripts address lines and
fields of a line, `fscanf` reads the tokens one after the other.  Simplifications: the decimal text of an `int` is the
integer itself (`Tok.int`), the text of `"%e"` is the value it denotes (`Tok.exp`), field widths are ignored (every
field is followed by a blank).  Hexadecimal text is modelled digit by digit.  JSON text is the structure it denotes:
`json.dumps` / `json.load` of integers, lists, objects and finite floats is trusted to be lossless.  A binary file is the list of
the numbers written by `fwrite`.  A failing script, a failing `fscanf`, a short `fread` or a store outside an array is
`none`.  Failing `fopen` / `malloc` are not modelled.
-/

namespace H2Pack.IO
open H2Pack.MV
open H2Pack.Part (Arr kids)

/-! ## Hexadecimal text -/

/-- `"%" PRIx64` (src/H2Pack_file_IO.c:172) and `hex(n)[2:]` (examples/meta_json_to_txt.py:12, 167): digits without
leading zeros. -/
def hexDigits (n : Nat) : List Nat := if n = 0 then [0] else (Nat.digits 16 n).reverse

/-- The number denoted by a list of digits (`"%" SCNx64`, src/H2Pack_file_IO.c:464). -/
def hexValue (d : List Nat) : Nat := d.foldl (fun a b => a * 16 + b) 0

/-- examples/meta_txt_to_json.py:11-12 `hex_to_double`: `bytes.fromhex` needs an even number of digits and
`struct.unpack('!d', ...)` exactly eight bytes; otherwise an exception ends the script.  The float is represented by its
bit pattern. -/
def hexToDouble (d : List Nat) : Option Nat :=
  if d.length % 2 = 0 then (if d.length / 2 = 8 then some (hexValue d) else none) else none

section
variable {K : Type}

/-- Number formats: `bits x` is the 64-bit pattern of the double `x`, `val` its inverse, `e6 x` the value of the text
`printf("%e", x)`. -/
structure Fmt (K : Type) where
  bits : K → Nat
  val : Nat → K
  e6 : K → K

inductive Tok (K : Type) where
  | int (i : Int)
  | hex (d : List Nat)
  | exp (x : K)

abbrev Line (K : Type) := List (Tok K)

/-- A number of C type `int` that is never negative. -/
def Tok.nat (n : Nat) : Tok K := .int (n : Int)

/-- The part of `struct H2Pack` that is stored (`J.R` holds tree, pairs, permutation, bases; `skel v` is `J[v]`;
`MB`, `MD` the block metadata; `bData`, `dData` are used when `jit` is false). -/
structure Mtx (K : Type) where
  J : JIT K
  ptDim : Nat
  isHSS : Bool
  jit : Bool
  skel : Nat → List Nat
  MB : Meta
  MD : Meta
  bData : Nat → K
  dData : Nat → K
  maxLeaf : Nat
  tol : K

/-- `fwrite(M->data, sizeof(DTYPE), nrow*ncol, f)` for a contiguous matrix (`ld = ncol`). -/
def matFlat (M : Mat K) : List K := (List.range (M.nrow * M.ncol)).map fun k => M.e (k / M.ncol) (k % M.ncol)
def blkFlat (b : Blk K) : List K := (List.range (b.nrow * b.ncol)).map b.data

/-! ## H2P_store_to_file -/

/-- src/H2Pack_file_IO.c:69-81. -/
def hasPart (R : Rep K) : Nat := if R.adm.any (fun x => decide (R.arr.level x.1 ≠ R.arr.level x.2)) then 1 else 0

/-- src/H2Pack_file_IO.c:39-84. -/
def header (H : Mtx K) : List (Line K) :=
  let R := H.J.R
  [[.nat H.ptDim], [.nat R.kdim], [.nat R.nPoint], [.nat R.size], [.nat R.size], [.nat 1],
   [.nat R.arr.nNode], [.nat R.arr.nNode], [.nat (R.arr.nNode - 1)], [.nat (R.arr.nNode - 1)],
   [.nat (R.arr.maxLevel + 1)], [.nat (R.arr.maxLevel + 1)], [.nat (if H.isHSS then 1 else 0)], [.nat R.minAdm],
   [.nat R.inadm.length], [.nat R.adm.length], [.nat (hasPart R)]]

/-- src/H2Pack_file_IO.c:89-102. -/
def nodeLine (A : Arr K) (i : Nat) : Line K :=
  [.nat i, .nat (A.level i), .nat (A.ptS i), .nat (A.ptE i), .nat (A.nChild i)] ++
  ((List.range (A.nChild i)).map fun j => .int (A.children (i * A.maxChild + j))) ++
  ((List.range' (A.nChild i) (A.maxChild - A.nChild i)).map fun _ => .int (-1))

/-- src/H2Pack_file_IO.c:106-116 (the line of node `i`). -/
def uLine (U : Nat → Mat K) (i : Nat) : Line K := [.nat i, .nat (U i).nrow, .nat (U i).ncol]

/-- The two files and `tmpM`. -/
structure Out (K : Type) where
  lines : List (Line K)
  bin : List K
  tmp : Blk K

section
variable [CommRing K]

/-- src/H2Pack_file_IO.c:119-136; `g` is the contents of the (resized) buffer `tmpM`.  If the pair is not found the function
prints a message and leaves `tmpM` as it is. -/
def storeB (H : Mtx K) (g : Nat → Nat → K) (s : Out K) (i : Nat) : Out K :=
  let n0 := (H.J.R.adm.getD i (0, 0)).1
  let n1 := (H.J.R.adm.getD i (0, 0)).2
  let tmp := (getBij H.J H.MB H.jit H.bData (g i) n0 n1).getD s.tmp
  ⟨s.lines ++ [[.nat n0, .nat n1, .nat tmp.nrow, .nat tmp.ncol,
     .nat (if H.J.R.arr.level n0 ≠ H.J.R.arr.level n1 then 1 else 0)]], s.bin ++ blkFlat tmp, tmp⟩

/-- src/H2Pack_file_IO.c:140-151 and 152-163: the block of the pair `n0`, `n1`. -/
def storeD (H : Mtx K) (g : Nat → K) (n0 n1 : Nat) (s : Out K) : Out K :=
  let tmp := (getDij H.J H.MD H.jit H.dData g n0 n1).getD s.tmp
  ⟨s.lines ++ [[.nat n0, .nat n1, .nat tmp.nrow, .nat tmp.ncol]], s.bin ++ blkFlat tmp, tmp⟩

/-- src/H2Pack_file_IO.c:169-175: the coordinates in the original order of the points. -/
def origCoord (n dim : Nat) (idx : Nat → Nat) (coord : Nat → K) (c0 : Nat → K) : Nat → K :=
  (List.range n).foldl (fun c i => (List.range dim).foldl (fun c j =>
    Function.update c (idx i * dim + j) (coord (j * n + i))) c) c0

/-- src/H2Pack_file_IO.c:178-186. -/
def coordLine (F : Fmt K) (dim : Nat) (c : Nat → K) (i : Nat) : Line K :=
  (List.range dim).map fun j => .hex (hexDigits (F.bits (c (i * dim + j))))

/-- src/H2Pack_file_IO.c:190-199. -/
def skelLine (skel : Nat → List Nat) (i : Nat) : Line K := [.nat i, .nat (skel i).length] ++ (skel i).map .nat

/-- src/H2Pack_file_IO.c:17-202 `H2P_store_to_file`: text file and binary file.  `gB`, `gD` are contents of the buffer, `c0` of
the new array `coord0`, `tmp` the initial `tmpM`.  `none`: the error return of lines 22-26. -/
def store (F : Fmt K) (H : Mtx K) (gB gD : Nat → Nat → K) (c0 : Nat → K) (tmp : Blk K) : Option (List (Line K) × List K) :=
  let R := H.J.R
  if H.J.xdim > H.ptDim then none
  else
    let s : Out K := ⟨header H ++ (List.range R.arr.nNode).map (nodeLine R.arr) ++ (List.range R.arr.nNode).map (uLine R.U),
      (List.range R.arr.nNode).flatMap (fun i => matFlat (R.U i)), tmp⟩
    let s := (List.range R.adm.length).foldl (storeB H gB) s
    let s := (List.range R.arr.nLeaf).foldl (fun s i => storeD H (gD i) (R.leaf i) (R.leaf i) s) s
    let s := (List.range R.inadm.length).foldl (fun s i =>
      storeD H (gD (R.arr.nLeaf + i)) (R.inadm.getD i (0, 0)).1 (R.inadm.getD i (0, 0)).2 s) s
    let c := origCoord R.nPoint H.ptDim R.coordIdx H.J.coord c0
    some (s.lines ++ [[.nat H.maxLeaf], [.exp (F.e6 H.tol)], [.nat 1]] ++ (List.range R.nPoint).map (coordLine F H.ptDim c) ++
      (List.range R.nPoint).map (fun i => [.nat (R.coordIdx i)]) ++ (List.range R.arr.nNode).map (skelLine H.skel), s.bin)

end

/-! ## examples/meta_txt_to_json.py -/

structure NodeJ where
  index : Int
  level : Int
  head : Int
  tail : Int
  nChild : Int
  children : List Int

structure UJ where
  node : Int
  nrow : Int
  ncol : Int

structure BJ where
  row : Int
  col : Int
  nrow : Int
  ncol : Int
  part : Int

structure DJ where
  row : Int
  col : Int
  nrow : Int
  ncol : Int

structure SkelJ where
  node : Int
  num : Int
  idx : List Int

structure MetaJson where
  nrow : Int
  ncol : Int
  symm : Int
  nNodeR : Int
  nNodeC : Int
  rootR : Int
  rootC : Int
  nLevelR : Int
  nLevelC : Int
  nInadm : Int
  nAdm : Int
  hasPart : Int
  nodes : List NodeJ
  U : List UJ
  B : List BJ
  D : List DJ

/-- The auxiliary JSON file; a missing field is `none`.  Coordinates are bit patterns. -/
structure AuxJson (K : Type) where
  ptDim : Option Int
  kdim : Option Int
  nPoint : Option Int
  isHSS : Option Int
  minAdm : Option Int
  maxLeaf : Option Int
  tol : Option K
  hasSkel : Option Int
  coord : Option (List Nat)
  perm : Option (List Int)
  skel : Option (List SkelJ)

/-- `int(raw_data[k])`. -/
def fieldInt (l : Line K) (k : Nat) : Option Int :=
  match l[k]? with
  | some (.int i) => some i
  | _ => none

/-- `int(line)`. -/
def lineInt (l : Line K) : Option Int :=
  match l with
  | [.int i] => some i
  | _ => none

/-- `float(line)`. -/
def lineExp (l : Line K) : Option K :=
  match l with
  | [.exp x] => some x
  | _ => none

/-- `hex_to_double(raw_data[k])`. -/
def fieldHex (l : Line K) (k : Nat) : Option Nat :=
  match l[k]? with
  | some (.hex d) => hexToDouble d
  | _ => none

/-- A loop over `lines[curr], ..., lines[curr+n-1]`. -/
def rows {β : Type} (lines : List (Line K)) (curr n : Nat) (f : Line K → Option β) : Option (List β) :=
  (List.range n).mapM fun i => lines[curr + i]? >>= f

/-- examples/meta_txt_to_json.py:47-62. -/
def parseNode (l : Line K) : Option NodeJ := do
  let index ← fieldInt l 0
  let level ← fieldInt l 1
  let head ← fieldInt l 2
  let tail ← fieldInt l 3
  let nChild ← fieldInt l 4
  let children ← (List.range nChild.toNat).mapM fun j => fieldInt l (5 + j)
  some ⟨index, level, head, tail, nChild, children⟩

/-- examples/meta_txt_to_json.py:70-76. -/
def parseU (l : Line K) : Option UJ := do
  let node ← fieldInt l 0
  let nrow ← fieldInt l 1
  let ncol ← fieldInt l 2
  some ⟨node, nrow, ncol⟩

/-- examples/meta_txt_to_json.py:82-90. -/
def parseB (l : Line K) : Option BJ := do
  let row ← fieldInt l 0
  let col ← fieldInt l 1
  let nrow ← fieldInt l 2
  let ncol ← fieldInt l 3
  let part ← fieldInt l 4
  some ⟨row, col, nrow, ncol, part⟩

/-- examples/meta_txt_to_json.py:96-103. -/
def parseD (l : Line K) : Option DJ := do
  let row ← fieldInt l 0
  let col ← fieldInt l 1
  let nrow ← fieldInt l 2
  let ncol ← fieldInt l 3
  some ⟨row, col, nrow, ncol⟩

/-- examples/meta_txt_to_json.py:128-137. -/
def parseSkel (l : Line K) : Option SkelJ := do
  let node ← fieldInt l 0
  let num ← fieldInt l 1
  let idx ← (List.range num.toNat).mapM fun j => fieldInt l (2 + j)
  some ⟨node, num, idx⟩

/-- examples/meta_txt_to_json.py:15-148 `metadata_txt_to_json`; `none`: an exception, the JSON files are not written. -/
def txtToJson (lines : List (Line K)) : Option (MetaJson × AuxJson K) := do
  let line := fun k => lines[k]? >>= lineInt
  let ptDim ← line 0
  let kdim ← line 1
  let nPoint ← line 2
  let nrow ← line 3
  let ncol ← line 4
  let symm ← line 5
  let nNodeR ← line 6
  let nNodeC ← line 7
  let rootR ← line 8
  let rootC ← line 9
  let nLevelR ← line 10
  let nLevelC ← line 11
  let isHSS ← line 12
  let minAdm ← line 13
  let nInadm ← line 14
  let nAdm ← line 15
  let hasPart ← line 16
  let nn := nNodeR.toNat
  let nodes ← rows lines 17 nn parseNode
  let nLeaf := nodes.countP (fun v => decide (v.nChild = 0))                       -- lines 55-56
  let curr := 17 + nn
  let nInadm := nInadm + (nLeaf : Int)                                             -- line 64
  let U ← rows lines curr nn parseU
  let curr := curr + nn
  let B ← rows lines curr nAdm.toNat parseB
  let curr := curr + nAdm.toNat
  let D ← rows lines curr nInadm.toNat parseD
  let curr := curr + nInadm.toNat
  let maxLeaf ← lines[curr]? >>= lineInt
  let tol ← lines[curr + 1]? >>= lineExp
  let hasSkel ← lines[curr + 2]? >>= lineInt
  let curr := curr + 3
  let coord ← rows lines curr nPoint.toNat fun l => (List.range ptDim.toNat).mapM (fieldHex l)
  let curr := curr + nPoint.toNat
  let perm ← rows lines curr nPoint.toNat lineInt
  let curr := curr + nPoint.toNat
  let skel ← rows lines curr nn parseSkel
  some (⟨nrow, ncol, symm, nNodeR, nNodeC, rootR, rootC, nLevelR, nLevelC, nInadm, nAdm, hasPart, nodes, U, B, D⟩,
    ⟨some ptDim, some kdim, some nPoint, some isHSS, some minAdm, some maxLeaf, some tol, some hasSkel, some coord.flatten,
      some perm, some skel⟩)

/-! ## examples/meta_json_to_txt.py -/

/-- Lines 116-131. -/
def printNode (maxChild : Nat) (v : NodeJ) : Option (Line K) := do
  let ch ← (List.range v.nChild.toNat).mapM fun j => v.children[j]?
  some ([.int v.index, .int v.level, .int v.head, .int v.tail, .int v.nChild] ++ ch.map .int ++
    (List.range' v.nChild.toNat (maxChild - v.nChild.toNat)).map fun _ => .int (-1))

/-- Lines 173-180. -/
def printSkel (s : SkelJ) : Option (Line K) := do
  let ix ← (List.range s.num.toNat).mapM fun j => s.idx[j]?
  some ([.int s.node, .int s.num] ++ ix.map .int)

/-- examples/meta_json_to_txt.py:14-181 `metadata_json_to_txt`; `zero` is the QR tolerance used when the field is
missing. -/
def jsonToTxt (F : Fmt K) (zero : K) (M : MetaJson) (X : AuxJson K) : Option (List (Line K)) := do
  let ptDim := X.ptDim.getD 3                                                       -- lines 34-92
  let kdim := X.kdim.getD 1
  let nPoint := X.nPoint.getD M.nrow
  let isHSS := X.isHSS.getD 0
  let minAdm := X.minAdm.getD 2
  let maxLeaf := X.maxLeaf.getD 300
  let tol := X.tol.getD zero
  let hasSkel := X.hasSkel.getD 0
  let coord := X.coord.getD ((List.range (ptDim * nPoint).toNat).map fun _ => 0)
  let perm := X.perm.getD ((List.range nPoint.toNat).map fun i : Nat => (i : Int))
  let skel := X.skel.getD []
  let nodes ← (List.range M.nNodeR.toNat).mapM fun i => M.nodes[i]?
  let nLeaf := nodes.countP (fun v => decide (v.nChild = 0))                        -- lines 104-109
  let nodeL ← nodes.mapM (printNode (2 ^ ptDim.toNat))
  let U ← (List.range M.nNodeR.toNat).mapM fun i => M.U[i]?
  let B ← (List.range M.nAdm.toNat).mapM fun i => M.B[i]?
  let D ← (List.range M.nInadm.toNat).mapM fun i => M.D[i]?
  let coordL ← (List.range nPoint.toNat).mapM fun i => (List.range ptDim.toNat).mapM fun j =>
    (coord[i * ptDim.toNat + j]?).map fun b => Tok.hex (hexDigits b)
  let permL ← (List.range nPoint.toNat).mapM fun i => (perm[i]?).map fun p => [Tok.int p]
  let skelL ← if hasSkel = 1 then (List.range M.nNodeR.toNat).mapM fun i => skel[i]? >>= printSkel else some []
  some ([[.int ptDim], [.int kdim], [.int nPoint], [.int M.nrow], [.int M.ncol], [.int M.symm], [.int M.nNodeR], [.int M.nNodeC],
    [.int M.rootR], [.int M.rootC], [.int M.nLevelR], [.int M.nLevelC], [.int isHSS], [.int minAdm],
    [.int (M.nInadm - (nLeaf : Int))], [.int M.nAdm], [.int M.hasPart]] ++ nodeL ++
    U.map (fun u => [.int u.node, .int u.nrow, .int u.ncol]) ++
    B.map (fun b => [.int b.row, .int b.col, .int b.nrow, .int b.ncol, .int b.part]) ++
    D.map (fun d => [.int d.row, .int d.col, .int d.nrow, .int d.ncol]) ++
    [[.int maxLeaf], [.exp (F.e6 tol)], [.int hasSkel]] ++ coordL ++ permL ++ skelL)

/-! ## H2P_read_from_file -/

/-- Remaining tokens of the text file and remaining numbers of the binary file. -/
abbrev Rd (K : Type) := StateT (List (Tok K) × List K) Option

/-- `fscanf(f, "%d", &i)`. -/
def rdInt : Rd K Int := fun s => match s.1 with
  | .int i :: t => some (i, (t, s.2))
  | _ => none

/-- `fscanf(f, "%d", &i)` for a variable that is used as a size or an index: a negative number is not followed further. -/
def rdNat : Rd K Nat := fun s => match s.1 with
  | .int i :: t => if 0 ≤ i then some (i.toNat, (t, s.2)) else none
  | _ => none

/-- `fscanf(f, "%" SCNx64, &u)`. -/
def rdHex : Rd K Nat := fun s => match s.1 with
  | .hex d :: t => some (hexValue d, (t, s.2))
  | _ => none

/-- `fscanf(f, "%lf", &x)`. -/
def rdExp : Rd K K := fun s => match s.1 with
  | .exp x :: t => some (x, (t, s.2))
  | _ => none

/-- `fread(data, sizeof(DTYPE), n, f)`. -/
def fread (n : Nat) : Rd K (List K) := fun s =>
  if n ≤ s.2.length then some (s.2.take n, (s.1, s.2.drop n)) else none

/-- A store outside of an array. -/
def inBounds (b : Bool) : Rd K Unit := fun s => if b then some ((), s) else none

/-- src/H2Pack_file_IO.c:317-346: one node; `nLeaf` of the state counts the leaves. -/
def readNode (kdim : Nat) (A : Arr K) (i : Nat) : Rd K (Arr K) := do
  let node ← rdNat
  let level ← rdNat
  inBounds (decide (node < A.nNode))
  let s ← rdNat
  let e ← rdNat
  let nc ← rdNat
  let A : Arr K := { A with
    ptS := Function.update A.ptS node s, ptE := Function.update A.ptE node e, nChild := Function.update A.nChild node nc
    nLeaf := if nc = 0 then A.nLeaf + 1 else A.nLeaf, level := Function.update A.level node level }
  let A ← (List.range nc).foldlM (fun (A : Arr K) j => do
    let c ← rdNat
    inBounds (decide (i * A.maxChild + j < A.nNode * A.maxChild ∧ c < A.nNode))
    pure { A with children := Function.update A.children (i * A.maxChild + j) (c : Int)
                  parent := Function.update A.parent c (node : Int) }) A
  (List.range' nc (A.maxChild - nc)).foldlM (fun (A : Arr K) j => do
    let _ ← rdInt
    inBounds (decide (i * A.maxChild + j < A.nNode * A.maxChild))
    pure { A with children := Function.update A.children (i * A.maxChild + j) (-1) }) A

/-- src/H2Pack_file_IO.c:353-361: `level_n_node` is cleared before. -/
def fillLevels (A : Arr K) : Rd K (Arr K) :=
  (List.range A.nNode).foldlM (fun (A : Arr K) node => do
    let l := A.level node
    inBounds (decide (l < A.nNode ∧ l * A.nLeaf + A.levelN l < A.nLeaf * (A.maxLevel + 1)))
    pure { A with levelNodes := Function.update A.levelNodes (l * A.nLeaf + A.levelN l) node
                  levelN := Function.update A.levelN l (A.levelN l + 1) }) { A with levelN := fun _ => 0 }

/-- src/H2Pack_file_IO.c:378-388: one basis. -/
def readU (zero : K) (nNode : Nat) (U : Nat → Mat K) (_ : Nat) : Rd K (Nat → Mat K) := do
  let node ← rdNat
  let nrow ← rdNat
  let ncol ← rdNat
  inBounds (decide (node < nNode))
  let d ← fread (nrow * ncol)
  pure (Function.update U node ⟨nrow, ncol, fun r c => d.getD (r * ncol + c) zero⟩)

/-- src/H2Pack_file_IO.c:400-411: one admissible pair. -/
def readB (s : List (Nat × Nat) × MetaSt) (i : Nat) : Rd K (List (Nat × Nat) × MetaSt) := do
  let n0 ← rdNat
  let n1 ← rdNat
  let nrow ← rdNat
  let ncol ← rdNat
  let _ ← rdInt
  pure (s.1 ++ [(n0, n1)], s.2.size i nrow ncol)

/-- src/H2Pack_file_IO.c:425-434: one leaf (`leaf_nodes[i]` is stored twice). -/
def readD0 (s : (Nat → Nat) × MetaSt) (i : Nat) : Rd K ((Nat → Nat) × MetaSt) := do
  let _ ← rdNat
  let v ← rdNat
  let nrow ← rdNat
  let ncol ← rdNat
  pure (Function.update s.1 i v, s.2.size i nrow ncol)

/-- src/H2Pack_file_IO.c:436-446: one inadmissible pair. -/
def readD1 (nLeaf : Nat) (s : List (Nat × Nat) × MetaSt) (i : Nat) : Rd K (List (Nat × Nat) × MetaSt) := do
  let n0 ← rdNat
  let n1 ← rdNat
  let nrow ← rdNat
  let ncol ← rdNat
  pure (s.1 ++ [(n0, n1)], s.2.size (i + nLeaf) nrow ncol)

/-- src/H2Pack_file_IO.c:457-465. -/
def readCoord (dim : Nat) (c : Nat → Nat) (i : Nat) : Rd K (Nat → Nat) :=
  (List.range dim).foldlM (fun c j => do
    let b ← rdHex
    pure (Function.update c (i * dim + j) b)) c

/-- src/H2Pack_file_IO.c:468. -/
def readPerm (p : Nat → Nat) (i : Nat) : Rd K (Nat → Nat) := do
  let v ← rdNat
  pure (Function.update p i v)

/-- src/H2Pack_file_IO.c:470-478: `coord` (order of the tree) and `coord0` (original order), both by columns. -/
def permCoord (F : Fmt K) (n dim : Nat) (idx : Nat → Nat) (raw : Nat → Nat) (s : (Nat → K) × (Nat → K)) : (Nat → K) × (Nat → K) :=
  (List.range n).foldl (fun s i => (List.range dim).foldl (fun (s : (Nat → K) × (Nat → K)) j =>
    (Function.update s.1 (j * n + i) (F.val (raw (idx i * dim + j))),
     Function.update s.2 (j * n + idx i) (F.val (raw (idx i * dim + j))))) s) s

/-- `J[v]` and `J_coord[v]`. -/
structure Skel (K : Type) where
  idx : Nat → List Nat
  jc : Nat → Nat → K

/-- src/H2Pack_file_IO.c:483-505: one node; `H2P_gather_matrix_columns` copies column `idx[k]` of `coord` to column `k`. -/
def readSkel (n nNode : Nat) (coord : Nat → K) (s : Skel K) (_ : Nat) : Rd K (Skel K) := do
  let node ← rdNat
  let len ← rdNat
  inBounds (decide (node < nNode))
  let ix ← (List.range len).foldlM (fun (l : List Nat) _ => do
    let v ← rdNat
    pure (l ++ [v])) []
  pure ⟨Function.update s.idx node ix,
    if len > 0 then Function.update s.jc node (fun k => coord (k / len * n + ix.getD (k % len) 0)) else s.jc⟩

/-- src/H2Pack_file_IO.c:519-524, 534-546: block `i` is copied to `data + offset`. -/
def readBlk (nrow ncol : Nat → Nat) (s : Nat × (Nat → K)) (i : Nat) : Rd K (Nat × (Nat → K)) := do
  let d ← fread (nrow i * ncol i)
  pure (s.1 + nrow i * ncol i, fun k => if s.1 ≤ k then (if h : k - s.1 < d.length then d[k - s.1] else s.2 k) else s.2 k)

/-- Everything that has been read. -/
structure Raw (K : Type) where
  ptDim : Nat
  isHSS : Nat
  R : Rep K
  sB : MetaSt
  sD0 : MetaSt
  sD1 : MetaSt
  maxLeaf : Nat
  tol : K
  coord : Nat → K
  coord0 : Nat → K
  skel : Skel K
  jit : Bool
  bData : Nat → K
  dData : Nat → K

/-- Contents of the newly allocated arrays. -/
structure Fresh (K : Type) where
  arr : Arr K
  U : Nat → Mat K
  leaf : Nat → Nat
  bits : Nat → Nat
  perm : Nat → Nat
  coord : (Nat → K) × (Nat → K)
  skel : Skel K
  bData : Nat → K
  dData : Nat → K

/-- src/H2Pack_file_IO.c:252-547 (sections 1 to 8).  `jit` is the argument `BD_JIT`.  The assertion of line 276 (`is_symm`)
ends the program.  In `R` the fields `B`, `D`, `mark` are set later. -/
def readFile (F : Fmt K) (zero : K) (jit : Bool) (G : Fresh K) : Rd K (Raw K) := do
  let ptDim ← rdNat
  let kdim ← rdNat
  let nPoint ← rdNat
  let _ ← rdNat
  let _ ← rdNat
  let symm ← rdInt
  let _ ← rdNat
  let nNode ← rdNat
  let _ ← rdNat
  let _ ← rdNat
  let _ ← rdNat
  let nLevel ← rdNat
  inBounds (decide (symm = 1 ∧ 1 ≤ nLevel))
  let isHSS ← rdNat
  let minAdm ← rdNat
  let nInadm ← rdNat
  let nAdm ← rdNat
  let _ ← rdNat
  let A : Arr K := { G.arr with nNode := nNode, nLeaf := 0, maxLevel := nLevel - 1, maxChild := 2 ^ ptDim }   -- src/H2Pack_typedef.c:27
  let A ← (List.range nNode).foldlM (readNode kdim) A
  let A ← fillLevels A
  let U ← (List.range nNode).foldlM (readU zero nNode) G.U
  let b ← (List.range nAdm).foldlM readB ([], MetaSt.init)
  let d0 ← (List.range A.nLeaf).foldlM readD0 (Function.update G.leaf 0 A.nLeaf, MetaSt.init)   -- line 354
  let d1 ← (List.range nInadm).foldlM (readD1 A.nLeaf) ([], { d0.2 with total := 0 })
  let maxLeaf ← rdNat
  let tol ← rdExp
  let hasSkel ← rdInt
  let raw ← (List.range nPoint).foldlM (readCoord ptDim) G.bits
  let perm ← (List.range nPoint).foldlM readPerm G.perm
  let c := permCoord F nPoint ptDim perm raw G.coord
  let sk ← if hasSkel ≠ 0 then (List.range nNode).foldlM (readSkel nPoint nNode c.1) G.skel else pure G.skel
  let useJit := if hasSkel ≠ 0 then jit else false
  let bd ← if useJit = false then (List.range nAdm).foldlM (readBlk b.2.nrow b.2.ncol) (0, G.bData) else pure (0, G.bData)
  let dd ← if useJit = false then (List.range (A.nLeaf + nInadm)).foldlM (readBlk d1.2.nrow d1.2.ncol) (0, G.dData) else pure (0, G.dData)
  pure ⟨ptDim, isHSS, ⟨{ A with heightNodes := d0.1 }, nPoint, kdim, perm, U, b.1, d1.1, fun _ => ⟨0, 0, fun _ _ => zero⟩, fun _ => ⟨0, 0, fun _ _ => zero⟩, minAdm, fun _ => 0⟩,
    b.2, d0.2, d1.2, maxLeaf, tol, c.1, c.2, sk, useJit, bd.2, dd.2⟩

/-- src/H2Pack_file_IO.c:586-602: one admissible pair. -/
def postB (adm : List (Nat × Nat)) (s : MetaSt) (i : Nat) : MetaSt :=
  let n0 := (adm.getD i (0, 0)).1
  let n1 := (adm.getD i (0, 0)).2
  let s := s.push n0 n1 (i + 1)
  let s := s.push n1 n0 (-(i + 1))
  (s.count n0).count n1

/-- src/H2Pack_file_IO.c:664-675. -/
def postD0 (leaf : Nat → Nat) (s : MetaSt) (i : Nat) : MetaSt := s.push (leaf i) (leaf i) (i + 1)

/-- src/H2Pack_file_IO.c:677-700. -/
def postD1 (nLeaf : Nat) (inadm : List (Nat × Nat)) (s : MetaSt) (i : Nat) : MetaSt :=
  let ii := i + nLeaf
  let n0 := (inadm.getD i (0, 0)).1
  let n1 := (inadm.getD i (0, 0)).2
  let s := s.push n0 n1 (ii + 1)
  s.push n1 n0 (-(ii + 1))

/-- src/H2Pack_file_IO.c:568-650 (section 10). -/
def finishB (Q : Raw K) (E : MetaEnv) (fuel : Nat) : Res Meta := do
  let n := Q.R.adm.length
  let s := (List.range n).foldl (postB Q.R.adm) Q.sB
  let b ← H2Pack.Utils.partitionWorkload n Q.sB.sz Q.sB.total E.nTask E.cap0
  let ptr := prefixPtr n Q.sB.sz
  let csr ← H2Pack.CSR.cooToCSR ⟨Q.R.arr.nNode, s.cnt, s.pi, s.pj, s.pv⟩ E.col0 E.val0 E.order fuel
  .ok ⟨s.nrow, s.ncol, ptr, s.total, b.1 - 1, b.2, 0, fun _ => 0, csr, s.nAdm⟩

/-- src/H2Pack_file_IO.c:652-720 (section 11). -/
def finishD (Q : Raw K) (E : MetaEnv) (fuel : Nat) : Res Meta := do
  let nl := Q.R.arr.nLeaf
  let n := Q.R.inadm.length
  let s := (List.range nl).foldl (postD0 Q.R.leaf) Q.sD1
  let s := (List.range n).foldl (postD1 nl Q.R.inadm) s
  let b0 ← H2Pack.Utils.partitionWorkload nl Q.sD1.sz Q.sD0.total E.nTask E.cap0
  let b1 ← H2Pack.Utils.partitionWorkload n (fun i => Q.sD1.sz (nl + i)) Q.sD1.total E.nTask E.cap1
  let ptr := prefixPtr (nl + n) Q.sD1.sz
  let csr ← H2Pack.CSR.cooToCSR ⟨Q.R.arr.nNode, s.cnt, s.pi, s.pj, s.pv⟩ E.col0 E.val0 E.order fuel
  .ok ⟨s.nrow, s.ncol, ptr, Q.sD0.total + Q.sD1.total, b0.1 - 1, b0.2, b1.1 - 1, b1.2, csr, s.nAdm⟩

/-- The arguments of `H2P_read_from_file` that describe the kernel, and buffer contents of later calls. -/
structure User (K : Type) where
  simd : Nat
  kern : (Nat → K) → (Nat → K) → Nat → Nat → K
  bimv : Option (Bimv K)
  junkM : Nat → Nat → K
  junkW : Nat → Nat → K

/-- Block `i` of a storage. -/
def storedBlk (M : Meta) (data : Nat → K) (i : Nat) : Mat K := ⟨M.nrow i, M.ncol i, fun r c => data (M.ptr i + (r * M.ncol i + c))⟩

/-- The loaded matrix (sections 9 to 12); `marks` is `node_n_r_inadm` as computed in section 13. -/
def finish (u : User K) (E : MetaEnv) (marks : Nat → Nat) (Q : Raw K) (fuel : Nat) : Res (Mtx K) := do
  let MB ← finishB Q E fuel
  let MD ← finishD Q E fuel
  .ok ⟨⟨{ Q.R with B := storedBlk MB Q.bData, D := storedBlk MD Q.dData, mark := if Q.isHSS = 1 then marks else MB.nAdm },
      u.simd, Q.ptDim, u.kern, u.bimv, Q.coord, fun v => (Q.skel.idx v).length, Q.skel.jc, u.junkM, u.junkW⟩,
    Q.ptDim, decide (Q.isHSS = 1), Q.jit, Q.skel.idx, MB, MD, Q.bData, Q.dData, Q.maxLeaf, Q.tol⟩

/-- `H2P_read_from_file` on the text and binary files, sections 1 to 12. -/
def load (F : Fmt K) (zero : K) (jit : Bool) (G : Fresh K) (u : User K) (E : MetaEnv) (marks : Nat → Nat)
    (lines : List (Line K)) (bin : List K) (fuel : Nat) : Option (Res (Mtx K)) :=
  match (readFile F zero jit G).run (lines.flatten, bin) with
  | none => none
  | some (Q, _) => some (finish u E marks Q fuel)

/-- `H2P_store_to_file` followed by `H2P_read_from_file` (sections 1 to 12), with the two scripts in between. -/
def storeLoad [CommRing K] (F : Fmt K) (zero : K) (H : Mtx K) (gB gD : Nat → Nat → K) (c0 : Nat → K) (tmp : Blk K) (jit : Bool) (G : Fresh K)
    (u : User K) (E : MetaEnv) (marks : Nat → Nat) (fuel : Nat) : Option (Res (Mtx K)) := do
  let f ← store F H gB gD c0 tmp
  let js ← txtToJson f.1
  let txt ← jsonToTxt F zero js.1 js.2
  load F zero jit G u E marks txt f.2 fuel

/-! ## Section 13 -/

section
variable [Field K] [LinearOrder K]
open H2Pack.Part (targetList alphaH2 alphaHSS)
open H2Pack.Utils (checkBoxAdmissible)

/-- src/H2Pack_partition.c:463-500 as executed by the reader: `nbox` is the number of boxes in the array `enbox`. -/
def listsWithBoxes (nbox ptDim mx minAdm : Nat) (A : Arr K) : Res (Nat → List Nat) :=
  ((List.range' minAdm (A.maxLevel + 1 - minAdm)).reverse).foldlM (fun f i =>
    ((List.range (A.levelN i)).map fun j => A.levelNodes (i * A.nLeaf + j)).foldlM (fun f node => do
      let l ← (targetList A i).foldlM (fun l t =>
        if nbox ≤ node ∨ nbox ≤ t then (.ub : Res (List Nat))
        else if checkBoxAdmissible (A.enbox node) (A.enbox t) ptDim alphaH2 = false ∧
           checkBoxAdmissible (A.enbox node) (A.enbox t) ptDim alphaHSS = true ∧ t ≠ node then
          if l.length < mx then .ok (l ++ [t]) else .ub
        else .ok l) []
      .ok (Function.update f node l)) f) (fun _ => [])

/-- src/H2Pack_file_IO.c:744-745: `H2P_calc_enclosing_box` (src/H2Pack_gen_proxy_point.c:361-415) allocates one box. -/
def readerLists (ptDim mx minAdm : Nat) (A : Arr K) : Res (Nat → List Nat) := listsWithBoxes 1 ptDim mx minAdm A

end

end

end H2Pack.IO
