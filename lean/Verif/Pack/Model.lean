import Verif.Basic
import Verif.Varint.Model

/-!
# Model of the pack type (src/common/type/pack.c; line numbers without a file are of this file)

Simplifications:

* `unsigned int` and `uint64_t` are natural numbers, with `% 2 ^ 32` where the code can wrap;
* a reader is the bytes that are left of its source. With `io` the source is an `IoRead` (what this gives is the subject of C68) and
  `pckReadBuffer` never gives more than the size of the internal buffer at once;
* a writer to an `IoWrite` has the bytes given to `ioWrite` in `sent`; the growth of the buffer of a writer to memory is not modelled;
* the stack has its top first and the static bottom last; after `pckReadEnd` and `pckWriteEnd` (`top = NULL`) it is empty, and every
  access to the top is undefined behaviour;
* assertions that are only in debug builds are assertion errors here.
-/

namespace Verif.Pack

abbrev Str := List UInt8

/-- `UINT_MAX` -/
def uintMax : Nat := 2 ^ 32 - 1

/-- `PackTypeMap` (102-127) without `pckTypeMapUnknown`. -/
inductive Ty where
  | array | bool | i32 | i64 | obj | str | u32 | u64 | strId | time | bin | pack | mode
  deriving DecidableEq, Repr

/-- The values of `PackTypeMap` (102-127). -/
def Ty.code : Ty → Nat
  | .array => 1 | .bool => 2 | .i32 => 3 | .i64 => 4 | .obj => 5 | .str => 7 | .u32 => 8 | .u64 => 9 | .strId => 10
  | .time => 15 | .bin => 16 | .pack => 17 | .mode => 18

/-- The check of the type that was read (531-533): the table `packTypeMapData` has an entry with a type. -/
def Ty.ofCode : Nat → Option Ty
  | 1 => some .array | 2 => some .bool | 3 => some .i32 | 4 => some .i64 | 5 => some .obj | 7 => some .str | 8 => some .u32
  | 9 => some .u64 | 10 => some .strId | 15 => some .time | 16 => some .bin | 17 => some .pack | 18 => some .mode
  | _ => none

/-- `valueMultiBit` of `packTypeMapData` (137-219). -/
def Ty.multi : Ty → Bool
  | .i32 | .i64 | .u32 | .u64 | .strId | .time | .mode => true
  | _ => false

/-- `valueSingleBit` of `packTypeMapData` (137-219). -/
def Ty.single : Ty → Bool
  | .bool | .str | .bin => true
  | _ => false

/-- `size` of `packTypeMapData` (137-219). -/
def Ty.size : Ty → Bool
  | .str | .bin | .pack => true
  | _ => false

/-- `PackTagStackItem` (224-229). -/
structure Frame where
  kind : Ty
  idLast : Nat
  nullTotal : Nat
  deriving DecidableEq, Repr

/-! ## Reading -/

/-- `PackRead` (239-253). `rest` are the bytes from `bufferPos`, or those left in the `IoRead`; `io` is the size of the internal buffer
when there is an `IoRead`. `nextTy` is `none` for `pckTypeMapUnknown`. -/
structure R where
  rest : Str
  io : Option Nat
  nextId : Nat
  nextTy : Option Ty
  nextValue : Nat
  nextSize : Nat
  stack : List Frame
  deriving DecidableEq, Repr

/-- `pckReadNewInternal`, `pckReadNewIo`, `pckReadNewC` (336-404). -/
def readNew (io : Option Nat) (bytes : Str) : R := ⟨bytes, io, 0, none, 0, 0, [⟨.obj, 0, 0⟩]⟩

/-- `pckReadBuffer` (415-452): how many bytes can be taken now. -/
def readBuffer (r : R) (size : Nat) : Res Nat :=
  let n := match r.io with
    | none => min size r.rest.length
    | some cap => min (min size cap) r.rest.length
  if n < 1 then .error .format else .ok n

/-- The loops of `pckReadConsumeBuffer` (465-470), `pckReadBin` (880-886), `pckReadPack` (1067-1073) and `pckReadStr` (1104-1109): take
`size` bytes in pieces. `fuel` is at least `size`, since each turn takes at least one byte. -/
def takeLoop : (fuel : Nat) → R → (size : Nat) → Res (Str × R)
  | _, r, 0 => .ok ([], r)
  | 0, _, _ + 1 => .error .ub
  | fuel + 1, r, size + 1 => do
    let n ← readBuffer r (size + 1)
    let (bs, r') ← takeLoop fuel { r with rest := r.rest.drop n } (size + 1 - n)
    pure (r.rest.take n ++ bs, r')

/-- `pckReadConsumeBuffer` (457-473). -/
def consumeBuffer (r : R) : Res R := do
  let (_, r') ← takeLoop r.nextSize r r.nextSize
  pure { r' with nextSize := 0 }

/-- `pckReadU64Internal` (479-496). At the end of the data an `IoRead` has another error (src/common/io/read.c:388-389). -/
def readU64 (r : R) : Res (Nat × R) :=
  match Varint.read r.rest with
  | .ok (v, rest) => .ok (v.toNat, { r with rest := rest })
  | .error e => .error (if r.io.isSome ∧ r.rest.length < Varint.bufferSizeMax then .fileRead else e)

/-- The high order bits of the delta (546, 559, 573, 586): the number after the tag when `more`, cut to 32 bits after the shift. -/
def readDelta (r : R) (low shift : Nat) (more : Bool) : Res (Nat × R) :=
  if more then do
    let (v, r') ← readU64 r
    pure (low ||| ((v % 2 ^ 32) <<< shift % 2 ^ 32), r')
  else .ok (low, r)

/-- The type of the field (526-529). -/
def readCode (tag : Nat) (r : R) : Res (Nat × R) :=
  if tag >>> 4 = 0xF then do
    let (v, r) ← readU64 r
    pure ((v % 2 ^ 32 + 0xF) % 2 ^ 32, r)
  else .ok (tag >>> 4, r)

/-- The delta of the id and the value (535-590). -/
def readValue (tag : Nat) (ty : Ty) (r : R) : Res (Nat × Nat × R) :=
  if ty.multi then
    if tag &&& 0x8 ≠ 0 then do
      let (d, r) ← readDelta r (tag &&& 0x3) 2 (tag &&& 0x4 ≠ 0)
      let (v, r) ← readU64 r
      pure (d, v, r)
    else do
      let (d, r) ← readDelta r (tag &&& 0x1) 1 (tag &&& 0x2 ≠ 0)
      pure (d, (tag >>> 2) &&& 0x3, r)
  else if ty.single then do
    let (d, r) ← readDelta r (tag &&& 0x3) 2 (tag &&& 0x4 ≠ 0)
    pure (d, (tag >>> 3) &&& 0x1, r)
  else do
    let (d, r) ← readDelta r (tag &&& 0x7) 3 (tag &&& 0x8 ≠ 0)
    pure (d, 0, r)

/-- The size (596-602). -/
def readSize (ty : Ty) (value : Nat) (r : R) : Res (Nat × R) :=
  if ty.size && (0 < value || !ty.single) then readU64 r else .ok (0, r)

/-- `pckReadTagNext` (501-611). The second part is the result. -/
def readTagNext (r : R) : Res (R × Bool) := do
  let _ ← readBuffer r 1
  match r.rest with
  | [] => .error .ub
  | b :: rest =>
    let r := { r with rest := rest }
    let tag := b.toNat
    if tag = 0 then pure ({ r with nextId := uintMax }, false)
    else
      match r.stack with
      | [] => .error .ub
      | top :: _ => do
        let (code, r) ← readCode tag r
        match Ty.ofCode code with
        | none => .error .format
        | some ty => do
          let (delta, value, r) ← readValue tag ty r
          let (size, r) ← readSize ty value r
          pure ({ r with nextId := (delta + (top.idLast + 1)) % 2 ^ 32, nextTy := some ty, nextValue := value, nextSize := size }, true)

/-- Set `idLast` of the top of the stack. -/
def setLast (r : R) (id : Nat) : R :=
  match r.stack with
  | [] => r
  | top :: tl => { r with stack := { top with idLast := id } :: tl }

/-- Get the next tag if it has not been read yet (639-641). -/
def ensureTag (r : R) : Res R := if r.nextId = 0 then (readTagNext r).map (·.1) else .ok r

/-- The loop of `pckReadTag` (637-680). `want` is the type, `none` to peek. Each turn but the first takes a byte, so `fuel` is the number of
bytes and two. -/
def tagLoop (id : Nat) (want : Option Ty) : (fuel : Nat) → R → Res R
  | 0, _ => .error .ub
  | fuel + 1, r => do
    let r ← ensureTag r
    if id < r.nextId then pure r
    else if id = r.nextId then
      match want with
      | none => pure r
      | some ty => if r.nextTy ≠ some ty then .error .format else pure { setLast r r.nextId with nextId := 0 }
    else do
      let r ← consumeBuffer r
      tagLoop id want fuel { setLast r r.nextId with nextId := 0 }

/-- `pckReadTag` (616-683). The result is the id that was searched for (`*id`) and the reader; the value is `nextValue` of the reader. -/
def readTag (r : R) (id : Nat) (want : Option Ty) : Res (Nat × R) :=
  match r.stack with
  | [] => .error .ub
  | top :: _ =>
    if id = 0 then do
      let i := (top.idLast + 1) % 2 ^ 32
      let r ← tagLoop i want (r.rest.length + 2) r
      pure (i, r)
    else if id ≤ top.idLast then .error .format
    else do
      let r ← tagLoop id want (r.rest.length + 2) r
      pure (id, r)

/-- `pckReadNullInternal` (763-786). -/
def readNull (r : R) (id : Nat) : Res (Bool × Nat × R) := do
  let (i, r) ← readTag r id none
  if i < r.nextId then pure (true, i, setLast r i) else pure (false, i, r)

/-- `pckReadNext` (686-697) with the assertion of line 694. -/
def readNext (r : R) : Res (Bool × R) :=
  if r.nextId ≠ 0 then .error .assert
  else do
    let (r, ok) ← readTagNext r
    pure (ok, r)

/-- `pckReadConsume` (727-743). A pack without a tag so far has the type unknown, which the assertion of line 628 does not allow. -/
def readConsume (r : R) : Res R := do
  let (i, r) ← readTag r 0 none
  match r.nextTy with
  | none => .error .assert
  | some ty =>
    let (_, r) ← readTag r i (some ty)
    consumeBuffer r

/-- `pckReadArrayBegin` (815-832) and `pckReadObjBegin` (969-986), by the type of the container. -/
def readBegin (r : R) (kind : Ty) (id : Nat) : Res R := do
  let (_, r) ← readTag r id (some kind)
  pure { r with stack := ⟨kind, 0, 0⟩ :: r.stack }

/-- `pckReadArrayEnd` (834-857) and `pckReadObjEnd` (988-1011) with `pckTagStackPopCheck` and `pckTagStackPop` (293-333). -/
def readEndOf (r : R) (kind : Ty) : Res R :=
  match r.stack with
  | [] => .error .ub
  | [_] => .error .format
  | top :: _ =>
    if top.kind ≠ kind then .error .format
    else do
      let (_, r) ← readTag r (uintMax - 1) none
      pure { r with stack := r.stack.tail, nextId := 0 }

/-- `pckReadEnd` (1225-1243). -/
def readEnd (r : R) : Res R :=
  match r.stack with
  | [] => .error .ub
  | [_] => do
    let (_, r) ← readTag r (uintMax - 1) none
    pure { r with stack := [] }
  | _ => .error .format

/-- Read the value of a field (`pckReadBool` and others): `none` when it is missing, else what `get` makes of the reader after the tag. -/
def readField {α : Type} (r : R) (id : Nat) (ty : Ty) (get : R → Res (α × R)) : Res (Option α × R) := do
  let (null, i, r) ← readNull r id
  if null then pure (none, r)
  else do
    let (_, r) ← readTag r i (some ty)
    let (a, r) ← get r
    pure (some a, r)

/-- What follows the tag of a string or binary (878-889, 1096-1112): nothing when the value is 0. -/
def getBytes (r : R) : Res (Str × R) :=
  if r.nextValue ≠ 0 then takeLoop r.nextSize r r.nextSize else .ok ([], r)

/-- `pckReadBool` (897-910). -/
def readBool (r : R) (id : Nat) (dflt : Bool) : Res (Bool × R) := do
  let (v, r) ← readField r id .bool fun r => .ok (decide (r.nextValue ≠ 0), r)
  pure (v.getD dflt, r)

/-- `pckReadI32` (913-928). -/
def readI32 (r : R) (id : Nat) (dflt : Int32) : Res (Int32 × R) := do
  let (v, r) ← readField r id .i32 fun r => .ok (Varint.fromZigZag32 (UInt32.ofNat r.nextValue), r)
  pure (v.getD dflt, r)

/-- `pckReadI64` (931-946). -/
def readI64 (r : R) (id : Nat) (dflt : Int64) : Res (Int64 × R) := do
  let (v, r) ← readField r id .i64 fun r => .ok (Varint.fromZigZag64 (UInt64.ofNat r.nextValue), r)
  pure (v.getD dflt, r)

/-- `pckReadTime` (1171-1186). -/
def readTime (r : R) (id : Nat) (dflt : Int64) : Res (Int64 × R) := do
  let (v, r) ← readField r id .time fun r => .ok (Varint.fromZigZag64 (UInt64.ofNat r.nextValue), r)
  pure (v.getD dflt, r)

/-- `pckReadMode` (951-966). -/
def readMode (r : R) (id : Nat) (dflt : UInt32) : Res (UInt32 × R) := do
  let (v, r) ← readField r id .mode fun r => .ok (UInt32.ofNat r.nextValue, r)
  pure (v.getD dflt, r)

/-- `pckReadU32` (1189-1204). -/
def readU32 (r : R) (id : Nat) (dflt : UInt32) : Res (UInt32 × R) := do
  let (v, r) ← readField r id .u32 fun r => .ok (UInt32.ofNat r.nextValue, r)
  pure (v.getD dflt, r)

/-- `pckReadU64` (1207-1222). -/
def readU64Fld (r : R) (id : Nat) (dflt : UInt64) : Res (UInt64 × R) := do
  let (v, r) ← readField r id .u64 fun r => .ok (UInt64.ofNat r.nextValue, r)
  pure (v.getD dflt, r)

/-- `pckReadStrId` (1123-1138). -/
def readStrId (r : R) (id : Nat) (dflt : UInt64) : Res (UInt64 × R) := do
  let (v, r) ← readField r id .strId fun r => .ok (UInt64.ofNat r.nextValue, r)
  pure (v.getD dflt, r)

/-- `pckReadBin` (860-894). -/
def readBin (r : R) (id : Nat) : Res (Option Str × R) := readField r id .bin getBytes

/-- `pckReadPack` (1052-1080). -/
def readPack (r : R) (id : Nat) : Res (Option Str × R) :=
  readField r id .pack fun r => takeLoop r.nextSize r r.nextSize

/-- `pckReadStr` (1083-1120). -/
def readStr (r : R) (id : Nat) (dflt : Option Str) : Res (Option Str × R) := do
  let (v, r) ← readField r id .str getBytes
  pure (v.or dflt, r)

/-- The loop of `pckReadStrLst` (1157-1162). Each turn but the last takes a byte. -/
def strLstLoop : (fuel : Nat) → R → Res (List (Option Str) × R)
  | 0, _ => .error .ub
  | fuel + 1, r => do
    let (null, _, r) ← readNull r 0
    if null then pure ([], r)
    else do
      let (s, r) ← readStr r 0 none
      let (ss, r) ← strLstLoop fuel r
      pure (s :: ss, r)

/-- `pckReadStrLst` (1141-1168). -/
def readStrLst (r : R) (id : Nat) : Res (Option (List (Option Str)) × R) := do
  let (null, i, r) ← readNull r id
  if null then pure (none, r)
  else do
    let r ← readBegin r .array i
    let (ss, r) ← strLstLoop (r.rest.length + 1) r
    let r ← readEndOf r .array
    pure (some ss, r)

/-! ## Writing -/

/-- `PackWrite` (255-261). `io` is the size of the internal buffer when there is an `IoWrite`, `sent` what was given to it. -/
structure W where
  io : Option Nat
  sent : Str
  buf : Str
  stack : List Frame
  deriving DecidableEq, Repr

/-- `pckWriteNewInternal`, `pckWriteNew`, `pckWriteNewIo` (1254-1311). -/
def writeNew (io : Option Nat) : W := ⟨io, [], [], [⟨.obj, 0, 0⟩]⟩

/-- `pckWriteBuffer` (1316-1363). -/
def writeBuffer (w : W) (bs : Str) : W :=
  match w.io with
  | none => { w with buf := w.buf ++ bs }
  | some cap =>
    if bs.length ≤ cap - w.buf.length then { w with buf := w.buf ++ bs }
    else
      let w := if w.buf ≠ [] then { w with sent := w.sent ++ w.buf, buf := [] } else w
      if bs.length ≤ cap - w.buf.length then { w with buf := w.buf ++ bs }
      else { w with sent := w.sent ++ bs }

/-- `pckWriteU64Internal` (1368-1386). -/
def writeU64 (w : W) (v : Nat) : Res W := do
  let bs ← Varint.write (UInt64.ofNat v) [] Varint.bufferSizeMax
  pure (writeBuffer w bs)

/-- The bits of the tag (1418-1478): tag, what is left of the delta and what is left of the value. -/
def tagBits (ty : Ty) (delta value : Nat) : Res (Nat × Nat × Nat) :=
  let tag := if ty.code ≥ 0xF then 0xF0 else ty.code <<< 4
  if ty.multi then
    if value < 2 then
      let tag := tag ||| (value &&& 0x1) <<< 2
      let value := value >>> 1
      let tag := tag ||| delta &&& 0x1
      let delta := delta >>> 1
      let tag := if delta > 0 then tag ||| 0x2 else tag
      .ok (tag, delta, value)
    else
      let tag := tag ||| 0x8
      let tag := tag ||| delta &&& 0x3
      let delta := delta >>> 2
      let tag := if delta > 0 then tag ||| 0x4 else tag
      .ok (tag, delta, value)
  else if ty.single then
    let tag := tag ||| (value &&& 0x1) <<< 3
    let value := value >>> 1
    let tag := tag ||| delta &&& 0x3
    let delta := delta >>> 2
    let tag := if delta > 0 then tag ||| 0x4 else tag
    .ok (tag, delta, value)
  else if value ≠ 0 then .error .assert
  else
    let tag := tag ||| delta &&& 0x7
    let delta := delta >>> 3
    let tag := if delta > 0 then tag ||| 0x8 else tag
    .ok (tag, delta, value)

/-- The numbers after the tag (1484-1498). -/
def writeIf (cond : Bool) (w : W) (v : Nat) : Res W := if cond then writeU64 w v else .ok w

/-- `pckWriteTag` (1392-1505). -/
def writeTag (w : W) (ty : Ty) (id value : Nat) : Res W :=
  match w.stack with
  | [] => .error .ub
  | top :: tl =>
    if id ≠ 0 ∧ ¬ id > top.idLast then .error .assert
    else do
      let i := if id = 0 then (top.idLast + top.nullTotal + 1) % 2 ^ 32 else id
      let (tag, delta, value) ← tagBits ty ((i + 2 ^ 32 - top.idLast + 2 ^ 32 - 1) % 2 ^ 32) value
      let w := writeBuffer w [UInt8.ofNat tag]
      let w ← writeIf (ty.code ≥ 0xF) w (ty.code - 0xF)
      let w ← writeIf (delta > 0) w delta
      let w ← writeIf (value > 0) w value
      pure { w with stack := { top with idLast := i, nullTotal := 0 } :: tl }

/-- `pckWriteNull` (1532-1542), also the first branch of `pckWriteDefaultNull` (1520-1524). -/
def writeNull (w : W) : Res W :=
  match w.stack with
  | [] => .error .ub
  | top :: tl => .ok { w with stack := { top with nullTotal := (top.nullTotal + 1) % 2 ^ 32 } :: tl }

/-- `pckWriteDefaultNull` (1509-1529) with what its callers do when it returns false. -/
def writeDefault (w : W) (defaultWrite defaultEqual : Bool) (k : W → Res W) : Res W :=
  if !defaultWrite && defaultEqual then writeNull w else k w

/-- `pckWriteArrayBegin` (1545-1561) and `pckWriteObjBegin` (1696-1712), by the type of the container. -/
def writeBegin (w : W) (kind : Ty) (id : Nat) : Res W := do
  let w ← writeTag w kind id 0
  pure { w with stack := ⟨kind, 0, 0⟩ :: w.stack }

/-- `pckWriteArrayEnd` (1564-1583) and `pckWriteObjEnd` (1715-1734). -/
def writeEndOf (w : W) (kind : Ty) : Res W :=
  match w.stack with
  | [] => .error .ub
  | [_] => .error .format
  | top :: tl =>
    if top.kind ≠ kind then .error .format
    else do
      let w ← writeU64 w 0
      pure { w with stack := tl }

/-- A string or binary (1595-1607, 1770-1783) after the check of the default. -/
def writeBytes (w : W) (ty : Ty) (id : Nat) (bs : Str) : Res W := do
  let w ← writeTag w ty id (if bs = [] then 0 else 1)
  if bs = [] then pure w
  else do
    let w ← writeU64 w bs.length
    pure (writeBuffer w bs)

/-- `pckWriteBin` (1586-1613); `none` is NULL. -/
def writeBin (w : W) (id : Nat) (v : Option Str) : Res W :=
  writeDefault w false (v = none) fun w =>
    match v with
    | none => .error .assert
    | some bs => writeBytes w .bin id bs

/-- `pckWriteStr` (1761-1788); `none` is NULL. -/
def writeStr (w : W) (id : Nat) (v : Option Str) (dw : Bool) (dflt : Option Str) : Res W :=
  writeDefault w dw (v = dflt) fun w =>
    match v with
    | none => .error .assert
    | some bs => writeBytes w .str id bs

/-- `pckWritePack` (1737-1758); `none` is NULL. -/
def writePack (w : W) (id : Nat) (v : Option Str) : Res W :=
  writeDefault w false (v = none) fun w =>
    match v with
    | none => .error .assert
    | some bs => do
      let w ← writeTag w .pack id 0
      let w ← writeU64 w bs.length
      pure (writeBuffer w bs)

/-- `pckWriteStrLst` (1811-1835); `none` is NULL. -/
def writeStrLst (w : W) (id : Nat) (v : Option (List (Option Str))) : Res W :=
  writeDefault w false (v = none) fun w =>
    match v with
    | none => .error .assert
    | some ss => do
      let w ← writeBegin w .array id
      let w ← ss.foldlM (fun w s => writeStr w 0 s false none) w
      writeEndOf w .array

/-- `pckWriteEnd` (1898-1922). -/
def writeEnd (w : W) : Res W := do
  let w ← writeU64 w 0
  if w.io.isSome then pure { w with sent := w.sent ++ w.buf, stack := [] }
  else pure { w with stack := [] }

/-! ## Calls -/

/-- A call of a writing function, with its parameters: `id` is 0 when it is not given, `dw` is `defaultWrite` and `dv` `defaultValue`. -/
inductive WOp where
  | null
  | bool (id : Nat) (v : Bool) (dw : Bool) (dv : Bool)
  | i32 (id : Nat) (v : Int32) (dw : Bool) (dv : Int32)
  | i64 (id : Nat) (v : Int64) (dw : Bool) (dv : Int64)
  | time (id : Nat) (v : Int64) (dw : Bool) (dv : Int64)
  | mode (id : Nat) (v : UInt32) (dw : Bool) (dv : UInt32)
  | u32 (id : Nat) (v : UInt32) (dw : Bool) (dv : UInt32)
  | u64 (id : Nat) (v : UInt64) (dw : Bool) (dv : UInt64)
  | strId (id : Nat) (v : UInt64) (dw : Bool) (dv : UInt64)
  | bin (id : Nat) (v : Option Str)
  | pack (id : Nat) (v : Option Str)
  | str (id : Nat) (v : Option Str) (dw : Bool) (dv : Option Str)
  | strLst (id : Nat) (v : Option (List (Option Str)))
  | arrayBegin (id : Nat) | arrayEnd
  | objBegin (id : Nat) | objEnd
  deriving DecidableEq, Repr

/-- The writing functions (1532-1895). -/
def write (w : W) : WOp → Res W
  | .null => writeNull w
  | .bool id v dw dv => writeDefault w dw (v = dv) fun w => writeTag w .bool id (if v then 1 else 0)
  | .i32 id v dw dv => writeDefault w dw (v = dv) fun w => writeTag w .i32 id (Varint.toZigZag32 v).toNat
  | .i64 id v dw dv => writeDefault w dw (v = dv) fun w => writeTag w .i64 id (Varint.toZigZag64 v).toNat
  | .time id v dw dv => writeDefault w dw (v = dv) fun w => writeTag w .time id (Varint.toZigZag64 v).toNat
  | .mode id v dw dv => writeDefault w dw (v = dv) fun w => writeTag w .mode id v.toNat
  | .u32 id v dw dv => writeDefault w dw (v = dv) fun w => writeTag w .u32 id v.toNat
  | .u64 id v dw dv => writeDefault w dw (v = dv) fun w => writeTag w .u64 id v.toNat
  | .strId id v dw dv => writeDefault w dw (v = dv) fun w => writeTag w .strId id v.toNat
  | .bin id v => writeBin w id v
  | .pack id v => writePack w id v
  | .str id v dw dv => writeStr w id v dw dv
  | .strLst id v => writeStrLst w id v
  | .arrayBegin id => writeBegin w .array id
  | .arrayEnd => writeEndOf w .array
  | .objBegin id => writeBegin w .obj id
  | .objEnd => writeEndOf w .obj

/-- A pack: a new writer, the calls, `pckWriteEnd`. The result are the bytes given to the `IoWrite`, or those of `pckWriteResult`
(1925-1942). -/
def writeAll (io : Option Nat) (ops : List WOp) : Res Str := do
  let w ← ops.foldlM write (writeNew io)
  let w ← writeEnd w
  pure (if io.isSome then w.sent else w.buf)

/-- A call of a reading function, with its parameters: `id` is 0 when it is not given. -/
inductive ROp where
  | null (id : Nat)
  | next
  | consume
  | bool (id : Nat) (dv : Bool)
  | i32 (id : Nat) (dv : Int32)
  | i64 (id : Nat) (dv : Int64)
  | time (id : Nat) (dv : Int64)
  | mode (id : Nat) (dv : UInt32)
  | u32 (id : Nat) (dv : UInt32)
  | u64 (id : Nat) (dv : UInt64)
  | strId (id : Nat) (dv : UInt64)
  | bin (id : Nat)
  | pack (id : Nat)
  | str (id : Nat) (dv : Option Str)
  | strLst (id : Nat)
  | arrayBegin (id : Nat) | arrayEnd
  | objBegin (id : Nat) | objEnd
  | «end»
  deriving DecidableEq, Repr

/-- What a reading function returns. `next` gives what `pckReadNext` returns and, if there is a field, `pckReadId` and `pckReadType`. -/
inductive Out where
  | none
  | bool (v : Bool)
  | int (v : Int)
  | nat (v : Nat)
  | bytes (v : Option Str)
  | list (v : Option (List (Option Str)))
  | next (v : Option (Nat × Ty))
  deriving DecidableEq, Repr

/-- The reading functions (686-1243). -/
def read (r : R) : ROp → Res (Out × R)
  | .null id => (readNull r id).map fun (b, _, r) => (.bool b, r)
  | .next => (readNext r).map fun (ok, r) => (.next (if ok then r.nextTy.map (r.nextId, ·) else Option.none), r)
  | .consume => (readConsume r).map fun r => (.none, r)
  | .bool id dv => (readBool r id dv).map fun (v, r) => (.bool v, r)
  | .i32 id dv => (readI32 r id dv).map fun (v, r) => (.int v.toInt, r)
  | .i64 id dv => (readI64 r id dv).map fun (v, r) => (.int v.toInt, r)
  | .time id dv => (readTime r id dv).map fun (v, r) => (.int v.toInt, r)
  | .mode id dv => (readMode r id dv).map fun (v, r) => (.nat v.toNat, r)
  | .u32 id dv => (readU32 r id dv).map fun (v, r) => (.nat v.toNat, r)
  | .u64 id dv => (readU64Fld r id dv).map fun (v, r) => (.nat v.toNat, r)
  | .strId id dv => (readStrId r id dv).map fun (v, r) => (.nat v.toNat, r)
  | .bin id => (readBin r id).map fun (v, r) => (.bytes v, r)
  | .pack id => (readPack r id).map fun (v, r) => (.bytes v, r)
  | .str id dv => (readStr r id dv).map fun (v, r) => (.bytes v, r)
  | .strLst id => (readStrLst r id).map fun (v, r) => (.list v, r)
  | .arrayBegin id => (readBegin r .array id).map fun r => (.none, r)
  | .arrayEnd => (readEndOf r .array).map fun r => (.none, r)
  | .objBegin id => (readBegin r .obj id).map fun r => (.none, r)
  | .objEnd => (readEndOf r .obj).map fun r => (.none, r)
  | .end => (readEnd r).map fun r => (.none, r)

/-- Calls of reading functions one after the other; an error ends them. -/
def reads (r : R) : List ROp → Res (List Out × R)
  | [] => .ok ([], r)
  | op :: ops => do
    let (o, r) ← read r op
    let (os, r) ← reads r ops
    pure (o :: os, r)

end Verif.Pack
