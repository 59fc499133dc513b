import Verif.Basic
import Verif.Encode.Model

/-! # Model of string identifiers (src/common/type/stringId.c, stringId.h)

A C string is the list of its characters. `ASSERT()` is checked in debug builds only; a failing assertion is
the outcome `Err.assert`. -/

namespace Verif.StringId

open Verif.Encode (ascii)

/-- The 5-bit encode map, src/common/type/stringId.c:53-71. -/
def map5 : List Nat := [
  0, 0, 0, 0, 0, 0, 0, 0, 0, 0, 0, 0, 0, 0, 0, 0,
  0, 0, 0, 0, 0, 0, 0, 0, 0, 0, 0, 0, 0, 0, 0, 0,
  0, 0, 0, 0, 0, 0, 0, 0, 0, 0, 0, 0, 0, 27, 0, 0,
  0, 0, 28, 0, 0, 29, 30, 0, 0, 0, 0, 0, 0, 0, 0, 0,
  0, 0, 0, 0, 0, 0, 0, 0, 0, 0, 0, 0, 0, 0, 0, 0,
  0, 0, 0, 0, 0, 0, 0, 0, 0, 0, 0, 0, 0, 0, 0, 0,
  0, 1, 2, 3, 4, 5, 6, 7, 8, 9, 10, 11, 12, 13, 14, 15,
  16, 17, 18, 19, 20, 21, 22, 23, 24, 25, 26, 0, 0, 0, 0, 0,
  0, 0, 0, 0, 0, 0, 0, 0, 0, 0, 0, 0, 0, 0, 0, 0,
  0, 0, 0, 0, 0, 0, 0, 0, 0, 0, 0, 0, 0, 0, 0, 0,
  0, 0, 0, 0, 0, 0, 0, 0, 0, 0, 0, 0, 0, 0, 0, 0,
  0, 0, 0, 0, 0, 0, 0, 0, 0, 0, 0, 0, 0, 0, 0, 0,
  0, 0, 0, 0, 0, 0, 0, 0, 0, 0, 0, 0, 0, 0, 0, 0,
  0, 0, 0, 0, 0, 0, 0, 0, 0, 0, 0, 0, 0, 0, 0, 0,
  0, 0, 0, 0, 0, 0, 0, 0, 0, 0, 0, 0, 0, 0, 0, 0,
  0, 0, 0, 0, 0, 0, 0, 0, 0, 0, 0, 0, 0, 0, 0, 0]

/-- The 6-bit encode map, src/common/type/stringId.c:149-167. -/
def map6 : List Nat := [
  0, 0, 0, 0, 0, 0, 0, 0, 0, 0, 0, 0, 0, 0, 0, 0,
  0, 0, 0, 0, 0, 0, 0, 0, 0, 0, 0, 0, 0, 0, 0, 0,
  0, 0, 0, 0, 0, 0, 0, 0, 0, 0, 0, 0, 0, 27, 0, 0,
  28, 29, 30, 31, 32, 33, 34, 35, 36, 37, 0, 0, 0, 0, 0, 0,
  0, 38, 39, 40, 41, 42, 43, 44, 45, 46, 47, 48, 49, 50, 51, 52,
  53, 54, 55, 56, 57, 58, 59, 60, 61, 62, 63, 0, 0, 0, 0, 0,
  0, 1, 2, 3, 4, 5, 6, 7, 8, 9, 10, 11, 12, 13, 14, 15,
  16, 17, 18, 19, 20, 21, 22, 23, 24, 25, 26, 0, 0, 0, 0, 0,
  0, 0, 0, 0, 0, 0, 0, 0, 0, 0, 0, 0, 0, 0, 0, 0,
  0, 0, 0, 0, 0, 0, 0, 0, 0, 0, 0, 0, 0, 0, 0, 0,
  0, 0, 0, 0, 0, 0, 0, 0, 0, 0, 0, 0, 0, 0, 0, 0,
  0, 0, 0, 0, 0, 0, 0, 0, 0, 0, 0, 0, 0, 0, 0, 0,
  0, 0, 0, 0, 0, 0, 0, 0, 0, 0, 0, 0, 0, 0, 0, 0,
  0, 0, 0, 0, 0, 0, 0, 0, 0, 0, 0, 0, 0, 0, 0, 0,
  0, 0, 0, 0, 0, 0, 0, 0, 0, 0, 0, 0, 0, 0, 0, 0,
  0, 0, 0, 0, 0, 0, 0, 0, 0, 0, 0, 0, 0, 0, 0, 0]

/-- `StringIdBit`, src/common/type/stringId.c:13-17. -/
inductive Bit where
  | b5
  | b6
  deriving DecidableEq, Repr

/-- Number of bits of a character. -/
def Bit.width : Bit → Nat
  | .b5 => 5
  | .b6 => 6

/-- The enum value, stored in bit 0 (`STRING_ID_BIT`). -/
def Bit.num : Bit → UInt64
  | .b5 => 0
  | .b6 => 1

/-- `STRID5_MAX` and `STRID6_MAX`, src/common/type/stringId.h:36-37. -/
def Bit.max : Bit → Nat
  | .b5 => 12
  | .b6 => 10

def Bit.map : Bit → List Nat
  | .b5 => map5
  | .b6 => map6

/-- `map[(uint8_t)c]`; every index is inside the table. -/
def look (tbl : List Nat) (c : UInt8) : Nat := (tbl[c.toNat]?).getD 0

/-- The `switch` with fall through of src/common/type/stringId.c:89-137 and 185-225: the characters are added
from the last one to the first one, character `i` at bit `4 + width * i`. -/
def pack (bit : Bit) : (i : Nat) → List UInt8 → UInt64
  | _, [] => bit.num
  | i, c :: rest =>
    pack bit (i + 1) rest ||| (UInt64.ofNat (look bit.map c) <<< UInt64.ofNat (4 + bit.width * i))

/-- `strIdBitFromZN`, src/common/type/stringId.c:33-230. 0 means that the string cannot be encoded. -/
def bitFromZN (bit : Bit) (s : List UInt8) : Res UInt64 :=
  if s.length = 0 then .error .assert
  else if s.length > bit.max then .ok 0
  else if s.any (fun c => look bit.map c == 0) then .ok 0
  else .ok (pack bit 0 s)

/-- `strIdFromZN`, src/common/type/stringId.c:232-278. `none` is `STRING_ID_SEQ_NONE`. The sequence is an
`unsigned int`; after the assertion of line 266 its value is at most 37 so the 32-bit arithmetic of lines
259 and 273 is exact. -/
def fromZN (s : List UInt8) (sequence : Option Nat) : Res UInt64 := do
  let r5 ← bitFromZN .b5 s
  let result ← (if r5 = 0 then do
    let r6 ← bitFromZN .b6 s
    if r6 = 0 then .error .format else pure r6
    else pure r5 : Res UInt64)
  match sequence with
  | none => pure result
  | some seq =>
    if seq < 6 then pure (result ||| UInt64.ofNat ((seq + 1) <<< 1))
    else do
      let bit := result &&& 1
      if ¬ s.length < (if bit ≠ 0 then 10 else 12) then .error .assert
      else if ¬ seq ≤ 37 then .error .assert
      else pure (((result >>> 1) <<< 6) ||| (UInt64.ofNat ((seq - 6) <<< 4) ||| 0xE ||| bit))

/-- The decode maps, src/common/type/stringId.c:308 and 344. -/
def char5 : List UInt8 := ascii "!abcdefghijklmnopqrstuvwxyz-256!"
def char6 : List UInt8 := ascii "!abcdefghijklmnopqrstuvwxyz-0123456789ABCDEFGHIJKLMNOPQRSTUVWXYZ"

def Bit.chars : Bit → List UInt8
  | .b5 => char5
  | .b6 => char6

def Bit.mask : Bit → UInt64
  | .b5 => 0x1F
  | .b6 => 0x3F

/-- `map[strId & mask]`; an index outside the table would be undefined behaviour. -/
def charAt (bit : Bit) (strId : UInt64) : Res UInt8 :=
  match bit.chars[(strId &&& bit.mask).toNat]? with
  | some c => .ok c
  | none => .error .ub

/-- The character extraction of src/common/type/stringId.c:311-335 and 347-369, `n` characters left. -/
def unpack (bit : Bit) : (n : Nat) → UInt64 → Res (List UInt8)
  | 0, _ => .ok []
  | 1, strId => do
    let c ← charAt bit strId
    if strId >>> UInt64.ofNat bit.width ≠ 0 then .error .assert else pure [c]
  | n + 2, strId => do
    let c ← charAt bit strId
    let strId := strId >>> UInt64.ofNat bit.width
    if strId = 0 then pure [c]
    else do
      let rest ← unpack bit (n + 1) strId
      pure (c :: rest)

/-- `strIdToZN`, src/common/type/stringId.c:281-372. -/
def toZN (strId : UInt64) : Res (List UInt8) :=
  if strId = 0 then .error .assert
  else
    let bit := if strId &&& 1 = 0 then Bit.b5 else Bit.b6
    let body := if strId &&& 0xE = 0xE then strId >>> 9 else strId >>> 4
    unpack bit bit.max body

/-- `strIdSeq`, src/common/type/stringId.c:389-406. -/
def seq (strId : UInt64) : Res Nat :=
  let s := strId.toNat % 2 ^ 32 &&& 0xE
  if s ≠ 0xE then
    if s = 0 then .error .assert else .ok ((s >>> 1) - 1)
  else .ok (((strId.toNat % 2 ^ 32 &&& 0x1F0) >>> 4) + 6)

end Verif.StringId
