import Verif.Model.Base

/-!
# Dense matrices (src/H2Pack_aux_structs.c:141-398, src/utils.c:91-121)

A matrix is a row-major buffer of `size` allocated elements with leading dimension `ld`.  Every copy is
checked against the sizes of its buffers, and `memcpy` between overlapping ranges is undefined behaviour.
-/

namespace H2Pack.Dense

variable {α : Type}

/-- `struct H2P_dense_mat`. -/
structure Mat (α : Type) where
  nrow : Nat
  ncol : Nat
  ld   : Nat
  size : Nat
  data : Nat → α

/-- Entry `(i, j)`. -/
def Mat.entry (m : Mat α) (i j : Nat) : α := m.data (i * m.ld + j)

/-- Copy of `len` elements inside one buffer from `src` to `dst` as if through a temporary. -/
def copyRange (data : Nat → α) (dst src len : Nat) : Nat → α :=
  fun k => if dst ≤ k ∧ k < dst + len then data (src + (k - dst)) else data k

/-- `memmove` inside a buffer of `size` elements. -/
def memmove (size : Nat) (data : Nat → α) (dst src len : Nat) : Res (Nat → α) :=
  if src + len ≤ size ∧ dst + len ≤ size then .ok (copyRange data dst src len) else .ub

/-- `memcpy` inside a buffer of `size` elements: the ranges must not overlap. -/
def memcpy (size : Nat) (data : Nat → α) (dst src len : Nat) : Res (Nat → α) :=
  if len = 0 ∨ src + len ≤ dst ∨ dst + len ≤ src then memmove size data dst src len else .ub

/-- `memcpy` from another buffer. -/
def memcpyFrom (size : Nat) (data : Nat → α) (dst : Nat) (ssize : Nat) (sdata : Nat → α) (src len : Nat) :
    Res (Nat → α) :=
  if src + len ≤ ssize ∧ dst + len ≤ size then
    .ok (fun k => if dst ≤ k ∧ k < dst + len then sdata (src + (k - dst)) else data k)
  else .ub

/-- src/H2Pack_aux_structs.c:216-219: a row is copied only when it moves. -/
def copyRowIf (ld ncol size irow r : Nat) (data : Nat → α) : Res (Nat → α) :=
  if r * ld ≠ irow * ld then memcpy size data (irow * ld) (r * ld) ncol else .ok data

/-- src/H2Pack_aux_structs.c:215-220: the loop of `H2P_dense_mat_select_rows` from row `irow`. -/
def selRowsLoop (ld ncol size : Nat) : Nat → List Nat → (Nat → α) → Res (Nat → α)
  | _, [], data => .ok data
  | irow, r :: rs, data => do
    let data ← copyRowIf ld ncol size irow r data
    selRowsLoop ld ncol size (irow+1) rs data

/-- src/H2Pack_aux_structs.c:213-222 `H2P_dense_mat_select_rows`. -/
def selectRows (m : Mat α) (idx : List Nat) : Res (Mat α) := do
  let data ← selRowsLoop m.ld m.ncol m.size 0 idx m.data
  .ok { m with data := data, nrow := idx.length }

/-- src/H2Pack_aux_structs.c:230-231: `mat_row[icol] = mat_row[col_idx[icol]]` for one row at `base`. -/
def selColsRow (size base : Nat) : Nat → List Nat → (Nat → α) → Res (Nat → α)
  | _, [], data => .ok data
  | icol, c :: cs, data =>
    if base + c < size ∧ base + icol < size then
      selColsRow size base (icol+1) cs (Function.update data (base + icol) (data (base + c)))
    else .ub

/-- src/H2Pack_aux_structs.c:227-232: all rows from `irow`, `n` of them. -/
def selColsRows (size ld : Nat) (idx : List Nat) : Nat → Nat → (Nat → α) → Res (Nat → α)
  | _, 0, data => .ok data
  | irow, n+1, data => do
    let data ← selColsRow size (irow * ld) 0 idx data
    selColsRows size ld idx (irow+1) n data

/-- src/H2Pack_aux_structs.c:234-239: compaction of rows `irow, irow+1, ...` (`n` of them) to leading
dimension `ncol`. -/
def compactRows (size ld ncol : Nat) : Nat → Nat → (Nat → α) → Res (Nat → α)
  | _, 0, data => .ok data
  | irow, n+1, data => do
    let data ← memmove size data (irow * ncol) (irow * ld) ncol
    compactRows size ld ncol (irow+1) n data

/-- src/H2Pack_aux_structs.c:225-241 `H2P_dense_mat_select_columns`. -/
def selectColumns (m : Mat α) (idx : List Nat) : Res (Mat α) := do
  let data ← selColsRows m.size m.ld idx 0 m.nrow m.data
  let data ← compactRows m.size m.ld idx.length 1 (m.nrow - 1) data
  .ok { m with data := data, ncol := idx.length, ld := idx.length }

/-- src/H2Pack_aux_structs.c:199-204: the loop of `H2P_dense_mat_permute_rows` into the fresh buffer. -/
def permRowsLoop (m : Mat α) (nsize : Nat) : Nat → List Nat → (Nat → α) → Res (Nat → α)
  | _, [], data => .ok data
  | irow, r :: rs, data => do
    let data ← memcpyFrom nsize data (irow * m.ncol) m.size m.data (r * m.ld) m.ncol
    permRowsLoop m nsize (irow+1) rs data

/-- src/H2Pack_aux_structs.c:194-210 `H2P_dense_mat_permute_rows`; `p` has `nrow` entries. -/
def permuteRows (m : Mat α) (p : List Nat) (garbage : Nat → α) : Res (Mat α) := do
  let data ← permRowsLoop m (m.nrow * m.ncol) 0 p garbage
  .ok ⟨m.nrow, m.ncol, m.ncol, m.nrow * m.ncol, data⟩

/-- src/H2Pack_aux_structs.h:186-199 `H2P_dense_mat_resize`: the old content is lost when the buffer has
to grow. -/
def resize (m : Mat α) (nrow ncol : Nat) (garbage : Nat → α) : Mat α :=
  if nrow * ncol > m.size then ⟨nrow, ncol, ncol, nrow * ncol, garbage⟩
  else ⟨nrow, ncol, ncol, m.size, m.data⟩

/-- src/utils.c:92-121 `copy_matrix`: `n` rows starting with row `irow`, from a source buffer to offset
`off` of the destination buffer. -/
def copyMatrix (ncol : Nat) (s : Mat α) (dsize ldd off : Nat) : Nat → Nat → (Nat → α) → Res (Nat → α)
  | _, 0, data => .ok data
  | irow, n+1, data => do
    let data ← memcpyFrom dsize data (off + irow * ldd) s.size s.data (irow * s.ld) ncol
    copyMatrix ncol s dsize ldd off (irow+1) n data

/-- `memset(data, 0, sizeof(DTYPE) * n)`. -/
def memsetZero [Zero α] (size n : Nat) (data : Nat → α) : Res (Nat → α) :=
  if n ≤ size then .ok (fun k => if k < n then 0 else data k) else .ub

/-- src/H2Pack_aux_structs.c:333-342: the copy loop of `H2P_dense_mat_blkdiag` at row and column offsets. -/
def blkdiagLoop (dsize ldd : Nat) : Nat → Nat → List (Mat α) → (Nat → α) → Res (Nat → α)
  | _, _, [], data => .ok data
  | ro, co, m :: ms, data => do
    let data ← copyMatrix m.ncol m dsize ldd (ro * ldd + co) 0 m.nrow data
    blkdiagLoop dsize ldd (ro + m.nrow) (co + m.ncol) ms data

/-- src/H2Pack_aux_structs.c:321-343 `H2P_dense_mat_blkdiag`; `ms` are the matrices `mats[idx[i]]`. -/
def blkdiag [Zero α] (ms : List (Mat α)) (new : Mat α) (garbage : Nat → α) : Res (Mat α) := do
  let nrow := (ms.map Mat.nrow).sum
  let ncol := (ms.map Mat.ncol).sum
  let d := resize new nrow ncol garbage
  let data ← memsetZero d.size (nrow * ncol) d.data
  let data ← blkdiagLoop d.size d.ld 0 0 ms data
  .ok { d with data := data }

/-- src/H2Pack_aux_structs.c:361-369. -/
def vertcatLoop (dsize ldd : Nat) : Nat → List (Mat α) → (Nat → α) → Res (Nat → α)
  | _, [], data => .ok data
  | ro, m :: ms, data => do
    let data ← copyMatrix m.ncol m dsize ldd (ro * ldd) 0 m.nrow data
    vertcatLoop dsize ldd (ro + m.nrow) ms data

/-- src/H2Pack_aux_structs.c:346-370 `H2P_dense_mat_vertcat`.  An empty index list is undefined
behaviour (line 348 reads `idx->data[0]`); `none`: sizes do not match, an error is printed. -/
def vertcat (ms : List (Mat α)) (new : Mat α) (garbage : Nat → α) : Res (Option (Mat α)) :=
  match ms with
  | [] => .ub
  | m0 :: _ =>
    if ms.all (fun m => m.ncol = m0.ncol) then do
      let d := resize new (ms.map Mat.nrow).sum m0.ncol garbage
      let data ← vertcatLoop d.size d.ld 0 ms d.data
      .ok (some { d with data := data })
    else .ok none

/-- src/H2Pack_aux_structs.c:389-397. -/
def horzcatLoop (dsize ldd : Nat) : Nat → List (Mat α) → (Nat → α) → Res (Nat → α)
  | _, [], data => .ok data
  | co, m :: ms, data => do
    let data ← copyMatrix m.ncol m dsize ldd co 0 m.nrow data
    horzcatLoop dsize ldd (co + m.ncol) ms data

/-- src/H2Pack_aux_structs.c:373-398 `H2P_dense_mat_horzcat`. -/
def horzcat [Zero α] (ms : List (Mat α)) (new : Mat α) (garbage : Nat → α) : Res (Option (Mat α)) :=
  match ms with
  | [] => .ub
  | m0 :: _ =>
    if ms.all (fun m => m.nrow = m0.nrow) then do
      let ncol := (ms.map Mat.ncol).sum
      let d := resize new m0.nrow ncol garbage
      let data ← memsetZero d.size (m0.nrow * ncol) d.data
      let data ← horzcatLoop d.size d.ld 0 ms data
      .ok (some { d with data := data })
    else .ok none

/-- src/H2Pack_aux_structs.c:187-191 `H2P_dense_mat_copy` (distinct matrices). -/
def copy (src dst : Mat α) (garbage : Nat → α) : Res (Mat α) := do
  let d := resize dst src.nrow src.ncol garbage
  let data ← copyMatrix src.ncol src d.size d.ld 0 0 src.nrow d.data
  .ok { d with data := data }

end H2Pack.Dense
