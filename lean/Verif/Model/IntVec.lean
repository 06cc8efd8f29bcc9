import Verif.Model.Base

/-!
# Growable integer vector (src/H2Pack_aux_structs.c:51-108, src/H2Pack_aux_structs.h:75-104)
-/

namespace H2Pack.IntVec

/-- `struct H2P_int_vec`: `data` has `cap` allocated elements; elements not yet written are arbitrary. -/
structure Vec where
  cap  : Nat
  len  : Nat
  data : Nat → Int

/-- src/H2Pack_aux_structs.c:54-64 `H2P_int_vec_init`: a negative capacity means 128.  `garbage` is the
content of fresh memory. -/
def init (capacity : Int) (garbage : Nat → Int) : Vec :=
  ⟨if capacity < 0 then 128 else capacity.toNat, 0, garbage⟩

/-- src/H2Pack_aux_structs.h:79-90 `H2P_int_vec_set_capacity`: only grows; copies `length` elements to
fresh memory. -/
def setCapacity (v : Vec) (c : Nat) (garbage : Nat → Int) : Vec :=
  if c > v.cap then ⟨c, v.len, fun k => if k < v.len then v.data k else garbage k⟩ else v

/-- src/H2Pack_aux_structs.h:98-104 `H2P_int_vec_push_back`. -/
def pushBack (v : Vec) (x : Int) (garbage : Nat → Int) : Res Vec :=
  let v := if v.cap = v.len then setCapacity v (v.cap * 2) garbage else v
  if v.len < v.cap then .ok { v with data := Function.update v.data v.len x, len := v.len + 1 }
  else .ub

/-- The memcpy of src/H2Pack_aux_structs.c:95: `m` elements of `src` to position `at` of `dst`. -/
def copyTo (dst : Nat → Int) (start m : Nat) (src : Nat → Int) : Nat → Int :=
  fun k => if start ≤ k ∧ k < start + m then src (k - start) else dst k

/-- src/H2Pack_aux_structs.c:88-97 `H2P_int_vec_concatenate` for two different vectors. -/
def concatenate (dst src : Vec) (garbage : Nat → Int) : Res Vec :=
  let n := src.len + dst.len
  let d := if n > dst.cap then setCapacity dst n garbage else dst
  if dst.len + src.len ≤ d.cap ∧ src.len ≤ src.cap then
    .ok { d with data := copyTo d.data dst.len src.len src.data, len := n }
  else .ub

/-- The same function with `dst_vec == src_vec`: line 95 reads the reallocated buffer. -/
def concatSelf (v : Vec) (garbage : Nat → Int) : Res Vec :=
  let n := v.len + v.len
  let d := if n > v.cap then setCapacity v n garbage else v
  if v.len + v.len ≤ d.cap then
    .ok { d with data := copyTo d.data v.len v.len d.data, len := n }
  else .ub

/-- src/H2Pack_aux_structs.c:102-105: the loop of `H2P_int_vec_gather`, `dst.data[i] = src.data[idx[i]]`;
`inPlace` when `dst_vec == src_vec` (the reads see the writes). -/
def gatherLoop (src : Nat → Int) (inPlace : Bool) : Nat → List Nat → (Nat → Int) → (Nat → Int)
  | _, [], dst => dst
  | i, k :: ks, dst => gatherLoop src inPlace (i+1) ks (Function.update dst i ((if inPlace then dst else src) k))

/-- src/H2Pack_aux_structs.c:100-107 `H2P_int_vec_gather(src, idx, dst)`, `src ≠ dst`. -/
def gather (src : Vec) (idx : List Nat) (dst : Vec) (garbage : Nat → Int) : Res Vec :=
  let d := setCapacity dst idx.length garbage
  if idx.all (fun k => k < src.cap) then
    .ok { d with data := gatherLoop src.data false 0 idx d.data, len := idx.length }
  else .ub

/-- `H2P_int_vec_gather(v, idx, v)`. -/
def gatherInPlace (v : Vec) (idx : List Nat) (garbage : Nat → Int) : Res Vec :=
  let d := setCapacity v idx.length garbage
  if idx.all (fun k => k < d.cap) then
    .ok { d with data := gatherLoop d.data true 0 idx d.data, len := idx.length }
  else .ub

/-- Calls on one vector. -/
inductive Op where
  | push (x : Int)
  | concat (xs : List Int)
  | concatSelf
  | setCap (c : Nat)
  | reset

/-- src/H2Pack_aux_structs.c:77-85 `H2P_int_vec_reset`. -/
def resetVec (garbage : Nat → Int) : Vec := ⟨128, 0, garbage⟩

/-- Another vector holding `xs`. -/
def ofList (xs : List Int) : Vec := ⟨xs.length, xs.length, fun k => xs.getD k 0⟩

def run (v : Vec) (op : Op) (garbage : Nat → Int) : Res Vec :=
  match op with
  | .push x => pushBack v x garbage
  | .concat xs => concatenate v (ofList xs) garbage
  | .concatSelf => concatSelf v garbage
  | .setCap c => .ok (setCapacity v c garbage)
  | .reset => .ok (resetVec garbage)

end H2Pack.IntVec
