import Verif.Basic

/-! # Model of varint-128 and zig-zag coding (src/common/type/convert.c, convert.h) -/

namespace Verif.Varint

/-- `CVT_VARINT128_BUFFER_SIZE`, src/common/type/convert.h:24. -/
def bufferSizeMax : Nat := 10

/-- `cvtUInt64ToVarInt128`, src/common/type/convert.c:824-859. `out` is the content of the buffer before
`*bufferPos` (so `out.length` is `*bufferPos`) and `size` is `bufferSize`. The assertion of line 835 is an
assertion error here. Bytes of the buffer at or after the position are not modelled. -/
def write (value : UInt64) (out : List UInt8) (size : Nat) : Res (List UInt8) :=
  if out.length < size then go value out else .error .assert
where
  /-- the loop of lines 838-856 -/
  go (value : UInt64) (out : List UInt8) : Res (List UInt8) :=
    if _h : value ≥ 0x80 then
      -- (uint8_t)value | 0x80; value >>= 7; (*bufferPos)++
      let out := out ++ [value.toUInt8 ||| 0x80]
      if out.length ≥ size then .error .assert
      else go (value >>> 7) out
    else
      .ok (out ++ [value.toUInt8])
  termination_by value.toNat
  decreasing_by
    rw [UInt64.toNat_shiftRight]
    have h' : (128 : Nat) ≤ value.toNat := by simpa [UInt64.le_iff_toNat_le] using _h
    simp only [Nat.shiftRight_eq_div_pow]
    have : (7 : UInt64).toNat % 64 = 7 := rfl
    rw [this]
    omega

/-- `cvtUInt64FromVarInt128`, src/common/type/convert.c:861-903. `buf` is the part of the buffer from
`*bufferPos` up to `bufferSize`; the result is the value and the unread part. `idx` is the loop variable
`bufferIdx` and `fuel` the number of iterations left, so `idx + fuel = CVT_VARINT128_BUFFER_SIZE`. -/
def readGo : (fuel : Nat) → (idx : Nat) → (result : UInt64) → (buf : List UInt8) → Res (UInt64 × List UInt8)
  -- lines 897-900: loop ended without a terminating byte
  | 0, _, _, _ => .error .format
  -- lines 879-881
  | _ + 1, _, _, [] => .error .format
  | fuel + 1, idx, result, byte :: rest =>
    let result := result ||| ((byte &&& 0x7f).toUInt64 <<< (UInt64.ofNat (7 * idx)))
    if byte < 0x80 then .ok (result, rest)
    else readGo fuel (idx + 1) result rest

def read (buf : List UInt8) : Res (UInt64 × List UInt8) := readGo bufferSizeMax 0 0 buf

/-- `cvtInt64ToZigZag`, src/common/type/convert.h:88-92. The right shift of a negative value is arithmetic
(implementation defined in C; gcc and clang behave so). -/
def toZigZag64 (value : Int64) : UInt64 := (value.toUInt64 <<< 1) ^^^ (value >>> 63).toUInt64

/-- `cvtInt64FromZigZag`, src/common/type/convert.h:94-98. -/
def fromZigZag64 (value : UInt64) : Int64 := ((value >>> 1) ^^^ (~~~(value &&& 1) + 1)).toInt64

/-- `cvtInt32ToZigZag`, src/common/type/convert.h:76-80. -/
def toZigZag32 (value : Int32) : UInt32 := (value.toUInt32 <<< 1) ^^^ (value >>> 31).toUInt32

/-- `cvtInt32FromZigZag`, src/common/type/convert.h:82-86. -/
def fromZigZag32 (value : UInt32) : Int32 := ((value >>> 1) ^^^ (~~~(value &&& 1) + 1)).toInt32

end Verif.Varint
