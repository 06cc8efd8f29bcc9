/-!
# Model of `calc_block_spos_len` (src/utils.c)

`int` is modelled by `Int` (no overflow).  C's `/` and `%` truncate toward
zero, modelled by `Int.tdiv` and `Int.tmod`.
-/

namespace H2Pack

/-- Result of `calc_block_spos_len`: the two output parameters. -/
structure BlkRange where
  spos : Int
  len  : Int
deriving Repr, DecidableEq

/-- src/utils.c:26-48, `calc_block_spos_len(len, nblk, iblk, &blk_spos, &blk_len)`.
The guard of line 31 is `iblk > nblk` (not `>=`), copied as is.  `none` is the
division by zero of lines 37-38 (`nblk = 0`), which is undefined behaviour. -/
def calcBlockSposLen (len nblk iblk : Int) : Option BlkRange :=
  if iblk < 0 ∨ iblk > nblk then some ⟨-1, 0⟩           -- lines 31-36
  else if nblk = 0 then none                             -- UB of lines 37-38
  else
    let rem := len.tmod nblk                             -- line 37
    let bs0 := len.tdiv nblk                             -- line 38
    let bs1 := bs0 + 1                                   -- line 39
    if iblk < rem then some ⟨bs1 * iblk, bs1⟩            -- lines 40-43
    else some ⟨bs0 * iblk + rem, bs0⟩                    -- lines 44-47

end H2Pack
