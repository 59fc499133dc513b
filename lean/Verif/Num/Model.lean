import Verif.Basic

/-! # Numbers as text: `strtoull()`/`strtoll()` and the conversion functions of src/common/type/convert.c

Characters are bytes. `strto*()` are C library functions; their model follows the C standard (7.24.1.7) in the
"C" locale with 64-bit results: optional white space, optional sign, for base 16 an optional `0x`, then the
longest run of digits of the base. -/

namespace Verif.Num

/-- `isspace()` in the "C" locale. -/
def isSpace (c : UInt8) : Bool := c == 0x20 || (0x09 ≤ c && c ≤ 0x0d)

/-- Value of a character as a digit of some base up to 36. -/
def digitVal (c : UInt8) : Option Nat :=
  if 0x30 ≤ c ∧ c ≤ 0x39 then some (c.toNat - 0x30)
  else if 0x61 ≤ c ∧ c ≤ 0x7a then some (c.toNat - 0x61 + 10)
  else if 0x41 ≤ c ∧ c ≤ 0x5a then some (c.toNat - 0x41 + 10)
  else none

/-- Value of a digit of base `base`. -/
def digitOf (base : Nat) (c : UInt8) : Option Nat :=
  match digitVal c with
  | some d => if d < base then some d else none
  | none => none

/-- The longest run of digits: its value appended to `acc`, and the rest of the string. -/
def parseDigits (base : Nat) : (acc : Nat) → List UInt8 → Nat × List UInt8
  | acc, [] => (acc, [])
  | acc, c :: rest =>
    match digitOf base c with
    | some d => parseDigits base (acc * base + d) rest
    | none => (acc, c :: rest)

/-- Optional `0x`/`0X` before a hexadecimal digit. -/
def skipPrefix (base : Nat) (s : List UInt8) : List UInt8 :=
  match s with
  | z :: x :: d :: rest =>
    if base = 16 ∧ z = 0x30 ∧ (x = 0x78 ∨ x = 0x58) ∧ (digitOf 16 d).isSome then d :: rest else s
  | _ => s

/-- Optional sign. -/
def splitSign (s : List UInt8) : Bool × List UInt8 :=
  match s with
  | [] => (false, [])
  | c :: rest => if c = 0x2d then (true, rest) else if c = 0x2b then (false, rest) else (false, c :: rest)

/-- The subject sequence of `strto*()`: sign, magnitude and what follows it; `none` when there is no number (then
the end pointer is the start of the string). -/
def strto (base : Nat) (s : List UInt8) : Option (Bool × Nat × List UInt8) :=
  let p := splitSign (s.dropWhile isSpace)
  match skipPrefix base p.2 with
  | c :: rest => if (digitOf base c).isSome then
      some (p.1, (parseDigits base 0 (c :: rest)).1, (parseDigits base 0 (c :: rest)).2)
    else none
  | [] => none

/-- `strtoull()` with `cvtZToIntValid()`: `cvtZToUInt64Internal`, src/common/type/convert.c:26-44 and 73-93. A
negative number is negated modulo 2^64. -/
def uint64Internal (base : Nat) (s : List UInt8) : Res Nat :=
  match strto base s with
  | none => .error .format                                       -- end pointer is the start: blank or invalid
  | some (neg, v, rest) =>
    if v ≥ 2 ^ 64 then .error .format                            -- errno = ERANGE
    else if s = [] ∨ (s.head?.any isSpace) ∨ rest ≠ [] then .error .format
    else .ok (if neg then (2 ^ 64 - v) % 2 ^ 64 else v)

/-- `cvtZToUInt64Base`, src/common/type/convert.c:773-789. -/
def toUInt64Base (base : Nat) (s : List UInt8) : Res Nat := do
  let result ← uint64Internal base s
  if s.head? = some 0x2d then .error .format else pure result

/-- `cvtZToUIntBase`, src/common/type/convert.c:703-719. -/
def toUIntBase (base : Nat) (s : List UInt8) : Res Nat := do
  let result ← uint64Internal base s
  if s.head? = some 0x2d ∨ result > 2 ^ 32 - 1 then .error .format else pure result

/-- `strtoll()` with `cvtZToIntValid()`: `cvtZToInt64Internal`, src/common/type/convert.c:46-71. -/
def toInt64Base (base : Nat) (s : List UInt8) : Res Int :=
  match strto base s with
  | none => .error .format
  | some (neg, v, rest) =>
    if (neg = true ∧ v > 2 ^ 63) ∨ (neg = false ∧ v ≥ 2 ^ 63) then .error .format
    else if s = [] ∨ (s.head?.any isSpace) ∨ rest ≠ [] then .error .format
    else .ok (if neg then - (v : Int) else v)

/-- Character of a digit, upper case when `up`. -/
def digitChar (up : Bool) (d : Nat) : UInt8 :=
  if d < 10 then UInt8.ofNat (0x30 + d) else UInt8.ofNat ((if up then 0x41 else 0x61) + (d - 10))

/-- `printf()` of an unsigned number: digits without leading zeros (`%u`, `%x`, `%X`). -/
def fmt (base : Nat) (up : Bool) (n : Nat) : List UInt8 :=
  if _h : base < 2 ∨ n < base then [digitChar up n]
  else fmt base up (n / base) ++ [digitChar up (n % base)]
termination_by n
decreasing_by
  simp only [not_or, Nat.not_lt] at _h
  exact Nat.div_lt_self (by omega) (by omega)

/-- `printf()` with a minimum width filled with zeros (`%08X`, `%04d`, ...). -/
def fmtPad (width base : Nat) (up : Bool) (n : Nat) : List UInt8 :=
  List.replicate (width - (fmt base up n).length) 0x30 ++ fmt base up n

/-- `cvtUInt64ToZ`, src/common/type/convert.c:754-771 (`%" PRIu64 "`). -/
def uintToZ (n : Nat) : List UInt8 := fmt 10 false n

/-- `cvtInt64ToZ`, src/common/type/convert.c:432-449 (`%" PRId64 "`). -/
def intToZ (n : Int) : List UInt8 := if n < 0 then 0x2d :: fmt 10 false n.natAbs else fmt 10 false n.natAbs

end Verif.Num
