import Verif.Basic

/-!
# Characters of URIs

Model of the character classes in `src/common/io/http/common.c`.
-/

namespace Verif.Http.Query

abbrev Str := List UInt8

/-- These characters are reproduced verbatim (common.c 131-132). -/
def verbatim (path : Bool) (c : UInt8) : Bool :=
  (65 ≤ c && c ≤ 90) || (97 ≤ c && c ≤ 122) || (48 ≤ c && c ≤ 57) || c == 95 || c == 45 || c == 126 || c == 46 || (path && c == 47)

/-- `%02X` -/
def hexChr (n : UInt8) : UInt8 := if n < 10 then 48 + n else 55 + n

end Verif.Http.Query
