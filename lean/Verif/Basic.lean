/-
Shared vocabulary of the model.  A C byte array is a `List UInt8`.
-/

namespace Verif

/-- A byte string (`const char *p, size_t len` throughout /repo/src). -/
abbrev Bytes := List UInt8

end Verif
