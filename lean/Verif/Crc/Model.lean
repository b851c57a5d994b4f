import Verif.Basic
import Mathlib.Tactic.Common

/-!
The checksum of a saved block.
-/

namespace Verif.Crc

/-- One round of the table loop, `/repo/src/util.c:235`. -/
def round (c : BitVec 32) : BitVec 32 := if c &&& 1#32 = 1#32 then 0xedb88320#32 ^^^ (c >>> 1) else c >>> 1

/-- `table[n]`, `/repo/src/util.c:232-238`.  The C code fills a thread-local array on the first call; here the entry is
computed when asked for. -/
def table (n : BitVec 8) : BitVec 32 :=
  round (round (round (round (round (round (round (round (n.setWidth 32))))))))

/-- One byte of the checksum loop, `/repo/src/util.c:244`. -/
def step (c : BitVec 32) (b : UInt8) : BitVec 32 :=
  table ((c ^^^ b.toBitVec.setWidth 32).setWidth 8) ^^^ (c >>> 8)

/-- `crc32`, `/repo/src/util.c:228-248`. -/
def crc32 (data : Bytes) : BitVec 32 := ~~~ (data.foldl step (~~~ 0#32))

end Verif.Crc
