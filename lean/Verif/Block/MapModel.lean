import Verif.Basic
import Verif.Varint.Model

/-! # Model of block maps (src/command/backup/blockMap.c)

Numbers are natural numbers, reduced to 64 (or 32) bits where the code computes a value that might not fit. Flags are in
the bits below the shifted value, so `|` is addition and the test of a flag is the test of a binary digit. Sums and products
in the reader are not reduced (they only overflow for maps that were not written by the writer). -/

namespace Verif.Block

/-- `BlockMapItem`, src/command/backup/blockMap.h:20-29. -/
structure Item where
  reference : Nat
  superBlockSize : Nat
  bundleId : Nat
  offset : Nat
  size : Nat
  block : Nat
  checksum : List UInt8
  deriving DecidableEq

/-- `BlockMapReference`, src/command/backup/blockMap.c:57-65 (without the key). -/
structure Ref where
  superBlockSize : Nat
  bundleId : Nat
  offset : Nat
  size : Nat
  block : Nat
  deriving DecidableEq

/-- `refList`: the reference data found with `lstFind`. -/
abbrev Refs := Nat → Option Ref

/-- Replace or add the data of a reference. -/
def Refs.set (refs : Refs) (reference : Nat) (ref : Ref) : Refs :=
  fun r => if r = reference then some ref else refs r

/-- `ioWriteVarIntU64`, src/common/io/write.c. -/
def vint (n : Nat) : List UInt8 :=
  match Varint.write (UInt64.ofNat n) [] Varint.bufferSizeMax with
  | .ok bytes => bytes
  | .error _ => []

/-- `ioReadVarIntU64`, src/common/io/read.c:354-410. The data that ends within the number is a read error. -/
def readVint (bytes : List UInt8) : Res (Nat × List UInt8) :=
  match Varint.read bytes with
  | .ok (v, rest) => .ok (v.toNat, rest)
  | .error _ => if bytes.length < Varint.bufferSizeMax then .error .fileRead else .error .format

/-- Is the flag with value `2 ^ bit` set? -/
def flag (n bit : Nat) : Bool := n / 2 ^ bit % 2 == 1

/-- The value of a flag. -/
def flagIf (b : Bool) (bit : Nat) : Nat := if b then 2 ^ bit else 0

/-- Subtraction of 64-bit values. -/
def sub64 (a b : Nat) : Nat := (a + (2 ^ 64 - b % 2 ^ 64)) % 2 ^ 64

/-- The loops of lines 302-311 and 388-395 of src/command/backup/blockMap.c: runs of items with the same key, each with its
first item. -/
def groupKey {α β : Type} [DecidableEq β] (key : α → β) : List α → List (α × List α)
  | [] => []
  | x :: xs =>
    match groupKey key xs with
    | [] => [(x, [])]
    | (y, ys) :: rest => if key x = key y then (x, y :: ys) :: rest else (x, []) :: (y, ys) :: rest

/-- Number of blocks in a super block (lines 227 and 402). -/
def blockTotal (superBlockSize blockSize : Nat) : Nat :=
  superBlockSize / blockSize + (if superBlockSize % blockSize = 0 then 0 else 1)

/-- The super block size, lines 442-451 of src/command/backup/blockMap.c. -/
def writeSuperBlockSize (blockSize superBlockSize : Nat) : List UInt8 :=
  let remainder := decide (superBlockSize % blockSize ≠ 0)
  vint ((superBlockSize / blockSize * 2) % 2 ^ 64 + flagIf remainder 0) ++
    (if remainder then vint (superBlockSize % blockSize) else [])

/-- The stored size, lines 432-439: the difference from the last size, unless this is zero. -/
def encodeSize (sizeLast size : Nat) : Nat :=
  if sizeLast = 0 then size else (Varint.toZigZag64 (Int64.ofNat size - Int64.ofNat sizeLast)).toNat

/-- The header of a super block, lines 407-455: bytes and new reference data. `continued` is `referenceContinue`,
`encoded` is `referenceEncoded`, `last` the flag that the super block is the last one of the reference, `total` the flag
that the number of blocks is stored. -/
def writeSuperHead (blockSize : Nat) (encoded : Nat) (continued last total : Bool) (sizeLast : Nat) (ref : Ref)
    (first : Item) : List UInt8 × Ref :=
  if continued then
    (vint (encoded + flagIf last 2 + (first.reference * 8) % 2 ^ 32), ref)
  else
    let change := decide (first.superBlockSize ≠ ref.superBlockSize)
    (vint (flagIf last 0 + flagIf change 1 + flagIf total 2 + (encodeSize sizeLast first.size * 8) % 2 ^ 64) ++
        (if change then writeSuperBlockSize blockSize first.superBlockSize else []),
      { ref with offset := first.offset, size := first.size, block := 0, superBlockSize := first.superBlockSize })

/-- The number of blocks and their offset, lines 459-481: bytes and new reference data. -/
def writeTotal (total : Bool) (ref : Ref) (first : Item) (blocks : Nat) : List UInt8 × Ref :=
  if total then
    let gap := sub64 first.block ref.block
    let offset := decide (gap > 0)
    (vint (((blocks - 1) * 2) % 2 ^ 32 + flagIf offset 0) ++ (if offset then vint gap else []),
      { ref with block := (if offset then first.block else ref.block) + blocks })
  else ([], { ref with block := ref.block + blocks })

/-- The super blocks of a reference, lines 380-492. The result is the bytes, the reference data and `sizeLast`. -/
def writeSupers (blockSize : Nat) (encoded : Nat) :
    (continued : Bool) → (sizeLast : Nat) → Ref → List (Item × List Item) → List UInt8 × Ref × Nat
  | _, sizeLast, ref, [] => ([], ref, sizeLast)
  | continued, sizeLast, ref, (first, others) :: rest =>
    let blocks := others.length + 1
    let total := continued || decide (first.block ≠ 0) || decide (blocks ≠ blockTotal first.superBlockSize blockSize)
    let head := writeSuperHead blockSize encoded continued rest.isEmpty total sizeLast ref first
    let body := writeTotal total head.2 first blocks
    let next := writeSupers blockSize encoded false first.size body.2 rest
    (head.1 ++ body.1 ++ (first :: others).flatMap Item.checksum ++ next.1, next.2)

/-- The header of a reference, lines 313-378: bytes, `referenceEncoded`, `referenceContinue` and reference data. -/
def writeRefHead (blockSize : Nat) (refs : Refs) (last : Bool) (first : Item) : List UInt8 × Nat × Bool × Ref :=
  let shifted := (first.reference * 8) % 2 ^ 32
  match refs first.reference with
  | none =>
    let encoded := flagIf last 0 + flagIf (decide (first.bundleId > 0)) 1 + flagIf (decide (first.offset > 0)) 2
    (vint (encoded + shifted) ++ (if first.bundleId > 0 then vint first.bundleId else []) ++
        (if first.offset > 0 then vint first.offset else []),
      encoded, false, { superBlockSize := blockSize, bundleId := first.bundleId, offset := first.offset, size := 0, block := 0 })
  | some ref =>
    if first.offset = ref.offset then ([], flagIf last 0 + flagIf true 1, true, ref)
    else
      let gap := decide (first.offset > ref.offset + ref.size)
      let encoded := flagIf last 0 + flagIf gap 2
      (vint (encoded + shifted) ++ (if gap then vint (first.offset - (ref.offset + ref.size)) else []),
        encoded, false, { ref with offset := first.offset, size := first.size })

/-- The references, lines 293-493. -/
def writeRefs (blockSize : Nat) : (refs : Refs) → (sizeLast : Nat) → List (Item × List Item) → List UInt8
  | _, _, [] => []
  | refs, sizeLast, (first, others) :: rest =>
    let head := writeRefHead blockSize refs rest.isEmpty first
    let body := writeSupers blockSize head.2.1 head.2.2.1 sizeLast head.2.2.2 (groupKey Item.offset (first :: others))
    head.1 ++ body.1 ++ writeRefs blockSize (refs.set first.reference body.2.1) body.2.2 rest

/-- `blockMapWrite`, src/command/backup/blockMap.c:269-498. Assertions are not modelled (the map is not empty and the
references are in order, see `MapOk`). -/
def mapWrite (blockSize : Nat) (map : List Item) : List UInt8 :=
  vint 0 ++ writeRefs blockSize (fun _ => none) 0 (groupKey Item.reference map)

/-- Copy what was read over a checksum, lines 235-238: what is missing is not an error. -/
def overlay (checksum read : List UInt8) : List UInt8 := read ++ checksum.drop read.length

/-- Read blocks, lines 229-242. The result is the items, the checksum left in the item, and the remaining bytes. -/
def readBlocks (checksumSize : Nat) (item : Item) : (total : Nat) → (block : Nat) → List UInt8 →
    List Item × List UInt8 × List UInt8
  | 0, _, bytes => ([], item.checksum, bytes)
  | total + 1, block, bytes =>
    let item := { item with block := block, checksum := overlay item.checksum (bytes.take checksumSize) }
    let next := readBlocks checksumSize item total (block + 1) (bytes.drop checksumSize)
    (item :: next.1, next.2)

/-- The stored size, lines 181-186. -/
def decodeSize (sizeLast encoded : Nat) : Nat :=
  if sizeLast ≠ 0 then (Varint.fromZigZag64 (UInt64.ofNat encoded) + Int64.ofNat sizeLast).toUInt64.toNat else encoded

/-- The super block size, lines 189-198. -/
def readSuperBlockSize (blockSize superBlockSize : Nat) (change : Bool) (bytes : List UInt8) : Res (Nat × List UInt8) :=
  if change then do
    let (encoded, bytes) ← readVint bytes
    if flag encoded 0 then
      let (remainder, bytes) ← readVint bytes
      return (encoded / 2 * blockSize + remainder, bytes)
    else return (encoded / 2 * blockSize, bytes)
  else return (superBlockSize, bytes)

/-- The number of blocks and their offset, lines 214-227: total, first block, and remaining bytes. -/
def readTotal (blockSize superBlockSize block : Nat) (total : Bool) (bytes : List UInt8) : Res (Nat × Nat × List UInt8) :=
  if total then do
    let (encoded, bytes) ← readVint bytes
    if flag encoded 0 then
      let (gap, bytes) ← readVint bytes
      return (encoded / 2 + 1, block + gap, bytes)
    else return (encoded / 2 + 1, block, bytes)
  else return (blockTotal superBlockSize blockSize, block, bytes)

/-- What the loop over super blocks leaves: the items, the reference data, `sizeLast` and the remaining bytes. -/
structure SupersResult where
  items : List Item
  ref : Ref
  sizeLast : Nat
  bytes : List UInt8

/-- The header of a super block, lines 163-208: is it the last one of the reference, is the number of blocks stored, the
item, the reference data and the remaining bytes. `first` is `superBlockFirst`. -/
def readSuperHead (blockSize : Nat) (encoded : Nat) (continued first : Bool) (sizeLast : Nat) (item : Item) (ref : Ref)
    (bytes : List UInt8) : Res (Bool × Bool × Item × Ref × List UInt8) :=
  if continued then return (flag encoded 2, true, item, ref, bytes)
  else do
    let (superEncoded, bytes) ← readVint bytes
    let size := decodeSize sizeLast (superEncoded / 8)
    let (superBlockSize, bytes) ← readSuperBlockSize blockSize item.superBlockSize (flag superEncoded 1) bytes
    let item := { item with size := size, superBlockSize := superBlockSize }
    let ref := { ref with
      superBlockSize := if flag superEncoded 1 then superBlockSize else ref.superBlockSize
      offset := if first then item.offset else ref.offset + sizeLast
      size := size
      block := 0 }
    return (flag superEncoded 0, flag superEncoded 2, item, ref, bytes)

/-- The super blocks of a reference, lines 160-254. Each iteration reads at least one byte, so `fuel` is no restriction
when it is more than the number of bytes. -/
def readSupers (blockSize checksumSize : Nat) (encoded : Nat) : (fuel : Nat) → (continued first : Bool) →
    (sizeLast : Nat) → Item → Ref → List UInt8 → Res SupersResult
  | 0, _, _, _, _, _, _ => .error .fileRead
  | fuel + 1, continued, first, sizeLast, item, ref, bytes => do
    let (last, total, item, ref, bytes) ← readSuperHead blockSize encoded continued first sizeLast item ref bytes
    let (blocks, block, bytes) ← readTotal blockSize item.superBlockSize ref.block total bytes
    let (items, checksum, bytes) := readBlocks checksumSize item blocks block bytes
    let ref := { ref with block := block + blocks }
    let item := { item with offset := item.offset + item.size, checksum := checksum }
    if last then return ⟨items, ref, item.size, bytes⟩
    else
      let next ← readSupers blockSize checksumSize encoded fuel false false item.size item ref bytes
      return { next with items := items ++ next.items }

/-- A number that is only stored when a flag is set, lines 114-119 and 153. -/
def readOpt (present : Bool) (bytes : List UInt8) : Res (Nat × List UInt8) :=
  if present then readVint bytes else .ok (0, bytes)

/-- The header of a reference, lines 105-158: the item, the reference data, `referenceContinue` and remaining bytes. -/
def readRefHead (blockSize checksumSize : Nat) (refs : Refs) (encoded : Nat) (bytes : List UInt8) :
    Res (Item × Ref × Bool × List UInt8) :=
  let reference := encoded / 8 % 2 ^ 32
  let checksum := List.replicate checksumSize 0
  match refs reference with
  | none => do
    let (bundleId, bytes) ← readOpt (flag encoded 1) bytes
    let (offset, bytes) ← readOpt (flag encoded 2) bytes
    return (⟨reference, blockSize, bundleId, offset, 0, 0, checksum⟩, ⟨blockSize, bundleId, offset, 0, 0⟩, false, bytes)
  | some ref =>
    if flag encoded 1 then
      return (⟨reference, ref.superBlockSize, ref.bundleId, ref.offset, ref.size, 0, checksum⟩, ref, true, bytes)
    else do
      let (gap, bytes) ← readOpt (flag encoded 2) bytes
      let offset := ref.offset + ref.size + gap
      return (⟨reference, ref.superBlockSize, ref.bundleId, offset, 0, 0, checksum⟩, { ref with offset := offset }, false, bytes)

/-- The references, lines 103-260. -/
def readRefs (blockSize checksumSize : Nat) : (fuel : Nat) → Refs → (sizeLast : Nat) → List UInt8 →
    Res (List Item × List UInt8)
  | 0, _, _, _ => .error .fileRead
  | fuel + 1, refs, sizeLast, bytes => do
    let (encoded, bytes) ← readVint bytes
    let (item, ref, continued, bytes) ← readRefHead blockSize checksumSize refs encoded bytes
    let supers ← readSupers blockSize checksumSize encoded (bytes.length + 1) continued true sizeLast item ref bytes
    if flag encoded 0 then return (supers.items, supers.bytes)
    else
      let next ← readRefs blockSize checksumSize fuel (refs.set item.reference supers.ref) supers.sizeLast supers.bytes
      return (supers.items ++ next.1, next.2)

/-- `blockMapNewRead`, src/command/backup/blockMap.c:85-266. What follows the map is not read. -/
def mapRead (blockSize checksumSize : Nat) (bytes : List UInt8) : Res (List Item) := do
  let (version, bytes) ← readVint bytes
  if flag version 0 then .error .format
  else do
    let result ← readRefs blockSize checksumSize (bytes.length + 1) (fun _ => none) 0 bytes
    return result.1

end Verif.Block
