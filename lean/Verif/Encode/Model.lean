import Verif.Basic

/-! # Model of binary to string encodings (src/common/encode.c)

Characters are bytes (`UInt8`); a C string is the list of its characters without the terminating zero. Tables
are transcribed. `char` may be signed or unsigned depending on the platform (signed on x86-64); the code
indexes its decode tables with `(int)source[i]` so the sign matters and is a parameter `sgn`. -/

namespace Verif.Encode

/-- ASCII text as characters. -/
def ascii (s : String) : List UInt8 := s.toList.map (fun c => UInt8.ofNat c.toNat)

/-- `encodeBase64Lookup`, src/common/encode.c:21 (the characters of the C string as numbers, checked below). -/
def encodeBase64Lookup : List UInt8 :=
  [65, 66, 67, 68, 69, 70, 71, 72, 73, 74, 75, 76, 77, 78, 79, 80, 81, 82, 83, 84, 85, 86, 87, 88, 89, 90, 97, 98, 99,
  100, 101, 102, 103, 104, 105, 106, 107, 108, 109, 110, 111, 112, 113, 114, 115, 116, 117, 118, 119, 120, 121, 122,
  48, 49, 50, 51, 52, 53, 54, 55, 56, 57, 43, 47]

/-- `encodeBase64LookupUrl`, src/common/encode.c:224. -/
def encodeBase64LookupUrl : List UInt8 :=
  [65, 66, 67, 68, 69, 70, 71, 72, 73, 74, 75, 76, 77, 78, 79, 80, 81, 82, 83, 84, 85, 86, 87, 88, 89, 90, 97, 98, 99,
  100, 101, 102, 103, 104, 105, 106, 107, 108, 109, 110, 111, 112, 113, 114, 115, 116, 117, 118, 119, 120, 121, 122,
  48, 49, 50, 51, 52, 53, 54, 55, 56, 57, 45, 95]

/-- `encodeHexLookup`, src/common/encode.c:294-302. -/
def encodeHexLookup : List UInt8 :=
  [48, 48, 48, 49, 48, 50, 48, 51, 48, 52, 48, 53, 48, 54, 48, 55, 48, 56, 48, 57, 48, 97, 48, 98, 48, 99, 48, 100,
  48, 101, 48, 102, 49, 48, 49, 49, 49, 50, 49, 51, 49, 52, 49, 53, 49, 54, 49, 55, 49, 56, 49, 57, 49, 97, 49, 98,
  49, 99, 49, 100, 49, 101, 49, 102, 50, 48, 50, 49, 50, 50, 50, 51, 50, 52, 50, 53, 50, 54, 50, 55, 50, 56, 50, 57,
  50, 97, 50, 98, 50, 99, 50, 100, 50, 101, 50, 102, 51, 48, 51, 49, 51, 50, 51, 51, 51, 52, 51, 53, 51, 54, 51, 55,
  51, 56, 51, 57, 51, 97, 51, 98, 51, 99, 51, 100, 51, 101, 51, 102, 52, 48, 52, 49, 52, 50, 52, 51, 52, 52, 52, 53,
  52, 54, 52, 55, 52, 56, 52, 57, 52, 97, 52, 98, 52, 99, 52, 100, 52, 101, 52, 102, 53, 48, 53, 49, 53, 50, 53, 51,
  53, 52, 53, 53, 53, 54, 53, 55, 53, 56, 53, 57, 53, 97, 53, 98, 53, 99, 53, 100, 53, 101, 53, 102, 54, 48, 54, 49,
  54, 50, 54, 51, 54, 52, 54, 53, 54, 54, 54, 55, 54, 56, 54, 57, 54, 97, 54, 98, 54, 99, 54, 100, 54, 101, 54, 102,
  55, 48, 55, 49, 55, 50, 55, 51, 55, 52, 55, 53, 55, 54, 55, 55, 55, 56, 55, 57, 55, 97, 55, 98, 55, 99, 55, 100,
  55, 101, 55, 102, 56, 48, 56, 49, 56, 50, 56, 51, 56, 52, 56, 53, 56, 54, 56, 55, 56, 56, 56, 57, 56, 97, 56, 98,
  56, 99, 56, 100, 56, 101, 56, 102, 57, 48, 57, 49, 57, 50, 57, 51, 57, 52, 57, 53, 57, 54, 57, 55, 57, 56, 57, 57,
  57, 97, 57, 98, 57, 99, 57, 100, 57, 101, 57, 102, 97, 48, 97, 49, 97, 50, 97, 51, 97, 52, 97, 53, 97, 54, 97, 55,
  97, 56, 97, 57, 97, 97, 97, 98, 97, 99, 97, 100, 97, 101, 97, 102, 98, 48, 98, 49, 98, 50, 98, 51, 98, 52, 98, 53,
  98, 54, 98, 55, 98, 56, 98, 57, 98, 97, 98, 98, 98, 99, 98, 100, 98, 101, 98, 102, 99, 48, 99, 49, 99, 50, 99, 51,
  99, 52, 99, 53, 99, 54, 99, 55, 99, 56, 99, 57, 99, 97, 99, 98, 99, 99, 99, 100, 99, 101, 99, 102, 100, 48, 100,
  49, 100, 50, 100, 51, 100, 52, 100, 53, 100, 54, 100, 55, 100, 56, 100, 57, 100, 97, 100, 98, 100, 99, 100, 100,
  100, 101, 100, 102, 101, 48, 101, 49, 101, 50, 101, 51, 101, 52, 101, 53, 101, 54, 101, 55, 101, 56, 101, 57, 101,
  97, 101, 98, 101, 99, 101, 100, 101, 101, 101, 102, 102, 48, 102, 49, 102, 50, 102, 51, 102, 52, 102, 53, 102, 54,
  102, 55, 102, 56, 102, 57, 102, 97, 102, 98, 102, 99, 102, 100, 102, 101, 102, 102]

example : encodeBase64Lookup = ascii "ABCDEFGHIJKLMNOPQRSTUVWXYZabcdefghijklmnopqrstuvwxyz0123456789+/" := by decide +kernel
example : encodeBase64LookupUrl = ascii "ABCDEFGHIJKLMNOPQRSTUVWXYZabcdefghijklmnopqrstuvwxyz0123456789-_" := by decide +kernel
example : encodeHexLookup = ascii (
  "000102030405060708090a0b0c0d0e0f101112131415161718191a1b1c1d1e1f" ++
  "202122232425262728292a2b2c2d2e2f303132333435363738393a3b3c3d3e3f" ++
  "404142434445464748494a4b4c4d4e4f505152535455565758595a5b5c5d5e5f" ++
  "606162636465666768696a6b6c6d6e6f707172737475767778797a7b7c7d7e7f" ++
  "808182838485868788898a8b8c8d8e8f909192939495969798999a9b9c9d9e9f" ++
  "a0a1a2a3a4a5a6a7a8a9aaabacadaeafb0b1b2b3b4b5b6b7b8b9babbbcbdbebf" ++
  "c0c1c2c3c4c5c6c7c8c9cacbcccdcecfd0d1d2d3d4d5d6d7d8d9dadbdcdddedf" ++
  "e0e1e2e3e4e5e6e7e8e9eaebecedeeeff0f1f2f3f4f5f6f7f8f9fafbfcfdfeff") := by decide +kernel

/-- `decodeBase64Lookup`, src/common/encode.c:94-112. -/
def decodeBase64Lookup : List Int := [
  -1, -1, -1, -1, -1, -1, -1, -1, -1, -1, -1, -1, -1, -1, -1, -1,
  -1, -1, -1, -1, -1, -1, -1, -1, -1, -1, -1, -1, -1, -1, -1, -1,
  -1, -1, -1, -1, -1, -1, -1, -1, -1, -1, -1, 62, -1, -1, -1, 63,
  52, 53, 54, 55, 56, 57, 58, 59, 60, 61, -1, -1, -1, -1, -1, -1,
  -1,  0,  1,  2,  3,  4,  5,  6,  7,  8,  9, 10, 11, 12, 13, 14,
  15, 16, 17, 18, 19, 20, 21, 22, 23, 24, 25, -1, -1, -1, -1, -1,
  -1, 26, 27, 28, 29, 30, 31, 32, 33, 34, 35, 36, 37, 38, 39, 40,
  41, 42, 43, 44, 45, 46, 47, 48, 49, 50, 51, -1, -1, -1, -1, -1,
  -1, -1, -1, -1, -1, -1, -1, -1, -1, -1, -1, -1, -1, -1, -1, -1,
  -1, -1, -1, -1, -1, -1, -1, -1, -1, -1, -1, -1, -1, -1, -1, -1,
  -1, -1, -1, -1, -1, -1, -1, -1, -1, -1, -1, -1, -1, -1, -1, -1,
  -1, -1, -1, -1, -1, -1, -1, -1, -1, -1, -1, -1, -1, -1, -1, -1,
  -1, -1, -1, -1, -1, -1, -1, -1, -1, -1, -1, -1, -1, -1, -1, -1,
  -1, -1, -1, -1, -1, -1, -1, -1, -1, -1, -1, -1, -1, -1, -1, -1,
  -1, -1, -1, -1, -1, -1, -1, -1, -1, -1, -1, -1, -1, -1, -1, -1,
  -1, -1, -1, -1, -1, -1, -1, -1, -1, -1, -1, -1, -1, -1, -1, -1]

/-- `decodeHexLookup`, src/common/encode.c:342-360. -/
def decodeHexLookup : List Int := [
  -1, -1, -1, -1, -1, -1, -1, -1, -1, -1, -1, -1, -1, -1, -1, -1,
  -1, -1, -1, -1, -1, -1, -1, -1, -1, -1, -1, -1, -1, -1, -1, -1,
  -1, -1, -1, -1, -1, -1, -1, -1, -1, -1, -1, -1, -1, -1, -1, -1,
   0,  1,  2,  3,  4,  5,  6,  7,  8,  9, -1, -1, -1, -1, -1, -1,
  -1, 10, 11, 12, 13, 14, 15, -1, -1, -1, -1, -1, -1, -1, -1, -1,
  -1, -1, -1, -1, -1, -1, -1, -1, -1, -1, -1, -1, -1, -1, -1, -1,
  -1, 10, 11, 12, 13, 14, 15, -1, -1, -1, -1, -1, -1, -1, -1, -1,
  -1, -1, -1, -1, -1, -1, -1, -1, -1, -1, -1, -1, -1, -1, -1, -1,
  -1, -1, -1, -1, -1, -1, -1, -1, -1, -1, -1, -1, -1, -1, -1, -1,
  -1, -1, -1, -1, -1, -1, -1, -1, -1, -1, -1, -1, -1, -1, -1, -1,
  -1, -1, -1, -1, -1, -1, -1, -1, -1, -1, -1, -1, -1, -1, -1, -1,
  -1, -1, -1, -1, -1, -1, -1, -1, -1, -1, -1, -1, -1, -1, -1, -1,
  -1, -1, -1, -1, -1, -1, -1, -1, -1, -1, -1, -1, -1, -1, -1, -1,
  -1, -1, -1, -1, -1, -1, -1, -1, -1, -1, -1, -1, -1, -1, -1, -1,
  -1, -1, -1, -1, -1, -1, -1, -1, -1, -1, -1, -1, -1, -1, -1, -1,
  -1, -1, -1, -1, -1, -1, -1, -1, -1, -1, -1, -1, -1, -1, -1, -1]

/-- The character `=` (0x3d). -/
def pad : UInt8 := 0x3d

/-- Table look-up `encodeBase64Lookup[i]` (indices are always below 64, see `c02_no_ub_encode` lemmas; an index
outside the table would be undefined behaviour and yields character 0 here, which is not in any alphabet). -/
def look (tbl : List UInt8) (i : Nat) : UInt8 := (tbl[i]?).getD 0

/-- `encodeToStrBase64` (src/common/encode.c:23-79) for `pads = [pad, pad]` and `encodeToStrBase64Url`
(226-277) for no padding: the two functions differ only in the table and in the padding statements. The loop
over `sourceIdx += 3` is a recursion on groups of three bytes. -/
def encode64 (tbl : List UInt8) (padded : Bool) : List UInt8 → List UInt8
  | [] => []
  | [a] =>
    [look tbl (a.toNat >>> 2), look tbl ((a.toNat &&& 0x03) <<< 4)] ++ (if padded then [pad, pad] else [])
  | [a, b] =>
    [look tbl (a.toNat >>> 2), look tbl (((a.toNat &&& 0x03) <<< 4) ||| ((b.toNat &&& 0xf0) >>> 4)),
      look tbl ((b.toNat &&& 0x0f) <<< 2)] ++ (if padded then [pad] else [])
  | a :: b :: c :: rest =>
    [look tbl (a.toNat >>> 2), look tbl (((a.toNat &&& 0x03) <<< 4) ||| ((b.toNat &&& 0xf0) >>> 4)),
      look tbl (((b.toNat &&& 0x0f) <<< 2) ||| ((c.toNat &&& 0xc0) >>> 6)), look tbl (c.toNat &&& 0x3f)] ++
      encode64 tbl padded rest

/-- `encodeToStrBase64`, src/common/encode.c:23-79. -/
def encodeBase64 (source : List UInt8) : List UInt8 := encode64 encodeBase64Lookup true source

/-- `encodeToStrBase64Url`, src/common/encode.c:226-277. -/
def encodeBase64Url (source : List UInt8) : List UInt8 := encode64 encodeBase64LookupUrl false source

/-- `encodeToStrSizeBase64`, src/common/encode.c:82-91. -/
def sizeBase64 (n : Nat) : Nat := (n + 2) / 3 * 4

/-- `encodeToStrSizeBase64Url`, src/common/encode.c:280-289. -/
def sizeBase64Url (n : Nat) : Nat := n / 3 * 4 + (if n % 3 = 0 then 0 else n % 3 + 1)

/-- `encodeToStrHex`, src/common/encode.c:304-327: `memcpy` of two characters of the table per byte. -/
def encodeHex (source : List UInt8) : List UInt8 :=
  source.flatMap (fun b => [look encodeHexLookup (b.toNat * 2), look encodeHexLookup (b.toNat * 2 + 1)])

/-- `encodeToStrSizeHex`, src/common/encode.c:330-338. -/
def sizeHex (n : Nat) : Nat := n * 2

/-- `table[(int)c]`: with a signed `char` a character of 0x80 or more is a negative index, which is outside the
table (undefined behaviour). Used at src/common/encode.c:144,171,178,186,379,404. -/
def tableAt (sgn : Bool) (tbl : List Int) (c : UInt8) : Res Int :=
  if sgn && c ≥ 0x80 then .error .ub
  else match tbl[c.toNat]? with
    | some v => .ok v
    | none => .error .ub

/-- Loop of `decodeToBinValidateBase64`, src/common/encode.c:128-147. `n` is `sourceSize`, `last` is
`source[sourceSize - 1]`, `idx` is `sourceIdx`. -/
def validateBase64Loop (sgn : Bool) (n : Nat) (last : UInt8) : Nat → List UInt8 → Res Unit
  | _, [] => .ok ()
  | idx, c :: rest =>
    if c = pad then
      if idx < n - 2 then .error .format
      else if idx = n - 2 ∧ last ≠ pad then .error .format
      else validateBase64Loop sgn n last (idx + 1) rest
    else do
      let v ← tableAt sgn decodeBase64Lookup c
      if v = -1 then .error .format else validateBase64Loop sgn n last (idx + 1) rest

/-- `decodeToBinValidateBase64`, src/common/encode.c:114-150. -/
def validateBase64 (sgn : Bool) (source : List UInt8) : Res Unit :=
  if source.length % 4 ≠ 0 then .error .format
  else validateBase64Loop sgn source.length (source.getLastD 0) 0 source

/-- A look-up whose value is then shifted: a value of -1 there would be undefined behaviour (left shift of a
negative number), so it is not silently accepted. src/common/encode.c:171-186. -/
def digit (sgn : Bool) (tbl : List Int) (c : UInt8) : Res Nat := do
  let v ← tableAt sgn tbl c
  if v < 0 then .error .ub else .ok v.toNat

/-- Loop of `decodeToBinBase64`, src/common/encode.c:167-188. The loop bound is the string length, which is a
multiple of four after validation; reading beyond the terminating zero would be undefined behaviour. -/
def decodeBase64Loop (sgn : Bool) : List UInt8 → Res (List UInt8)
  | [] => .ok []
  | c0 :: c1 :: c2 :: c3 :: rest => do
    let d0 ← digit sgn decodeBase64Lookup c0
    let d1 ← digit sgn decodeBase64Lookup c1
    let out0 := [UInt8.ofNat ((d0 <<< 2) ||| (d1 >>> 4))]
    let out1 ←
      if c2 ≠ pad then do
        let d2 ← digit sgn decodeBase64Lookup c2
        pure [UInt8.ofNat ((d1 <<< 4) ||| (d2 >>> 2))]
      else pure []
    let out2 ←
      if c3 ≠ pad then do
        let d2 ← digit sgn decodeBase64Lookup c2
        let d3 ← digit sgn decodeBase64Lookup c3
        pure [UInt8.ofNat (((d2 <<< 6) &&& 0xc0) ||| d3)]
      else pure []
    let tail ← decodeBase64Loop sgn rest
    return out0 ++ out1 ++ out2 ++ tail
  | _ => .error .ub

/-- `decodeToBinBase64`, src/common/encode.c:153-191 (the destination buffer is the result). -/
def decodeBase64 (sgn : Bool) (source : List UInt8) : Res (List UInt8) := do
  validateBase64 sgn source
  decodeBase64Loop sgn source

/-- `decodeToBinSizeBase64`, src/common/encode.c:194-219. -/
def decodeSizeBase64 (sgn : Bool) (source : List UInt8) : Res Nat := do
  validateBase64 sgn source
  let size := source.length / 4 * 3
  if source.length ≠ 0 ∧ source.getLastD 0 = pad then
    if source[source.length - 2]? = some pad then return size - 1 - 1 else return size - 1
  else return size

/-- Loop of `decodeToBinValidateHex`, src/common/encode.c:377-381. -/
def validateHexLoop (sgn : Bool) : List UInt8 → Res Unit
  | [] => .ok ()
  | c :: rest => do
    let v ← tableAt sgn decodeHexLookup c
    if v = -1 then .error .format else validateHexLoop sgn rest

/-- `decodeToBinValidateHex`, src/common/encode.c:363-384. -/
def validateHex (sgn : Bool) (source : List UInt8) : Res Unit :=
  if source.length % 2 ≠ 0 then .error .format else validateHexLoop sgn source

/-- Loop of `decodeToBinHex`, src/common/encode.c:401-405. -/
def decodeHexLoop (sgn : Bool) : List UInt8 → Res (List UInt8)
  | [] => .ok []
  | c0 :: c1 :: rest => do
    let d0 ← digit sgn decodeHexLookup c0
    let d1 ← digit sgn decodeHexLookup c1
    let tail ← decodeHexLoop sgn rest
    return UInt8.ofNat ((d0 <<< 4) ||| d1) :: tail
  | _ => .error .ub

/-- `decodeToBinHex`, src/common/encode.c:387-408. -/
def decodeHex (sgn : Bool) (source : List UInt8) : Res (List UInt8) := do
  validateHex sgn source
  decodeHexLoop sgn source

/-- `decodeToBinSizeHex`, src/common/encode.c:411-422. -/
def decodeSizeHex (sgn : Bool) (source : List UInt8) : Res Nat := do
  validateHex sgn source
  return source.length / 2

end Verif.Encode
