import Verif.Varint.Model
import Verif.Common.Str

/-! # Model of the packed file list of the manifest (src/info/manifest/store.c.inc)

The manifest does not keep `ManifestFile` structures. Each file is kept in one block of memory: a string object
with the name, then flags and numbers as varints, then (aligned) a string object with the list of page errors. -/

namespace Verif.Manifest

open Verif

/-- `ManifestFile`, src/info/manifest/manifest.h:137-168. A pointer that may be `NULL` is an `Option`. `size_t` and
`time_t` have 64 bits. -/
structure File where
  name : Str
  copy : Bool := false
  delta : Bool := false
  resume : Bool := false
  checksumPage : Bool := false
  checksumPageError : Bool := false
  mode : UInt32 := 0
  checksumSha1 : Option (List UInt8) := none
  checksumRepoSha1 : Option (List UInt8) := none
  checksumPageErrorList : Option Str := none
  user : Option Str := none
  group : Option Str := none
  reference : Option Str := none
  bundleId : UInt64 := 0
  bundleOffset : UInt64 := 0
  blockIncrSize : UInt64 := 0
  blockIncrChecksumSize : UInt64 := 0
  blockIncrMapSize : UInt64 := 0
  size : UInt64 := 0
  sizeOriginal : UInt64 := 0
  sizeRepo : UInt64 := 0
  timestamp : Int64 := 0
  deriving DecidableEq

/-- The parts of `Manifest` that packing uses (src/info/manifest/manifest.c:24-34, manifest.h:226-237) and the
static variable `manifestPackBaseTime` (store.c.inc:69-70). -/
structure Env where
  owners : List Str
  references : List Str
  userDefault : Option Str
  groupDefault : Option Str
  modeDefault : UInt32
  base : Int64
  deriving DecidableEq

/-- Memory of a packed file. `data` is the copy of the buffer (store.c.inc:251-252). `list` is the string object of
the page errors with its offset from the start of the memory. Bytes that are added for alignment are left out. -/
structure Pack where
  name : Str
  data : List UInt8
  list : Option (Nat × Str)
  deriving DecidableEq

/-! ## Flags -/

/-- `ManifestFilePackFlag`, store.c.inc:72-92. -/
def fChecksum : Nat := 0
def fChecksumRepo : Nat := 1
def fReference : Nat := 2
def fBundle : Nat := 3
def fBlockIncr : Nat := 4
def fCopy : Nat := 5
def fDelta : Nat := 6
def fResume : Nat := 7
def fChecksumPage : Nat := 8
def fChecksumPageError : Nat := 9
def fChecksumPageErrorList : Nat := 10
def fSizeOriginal : Nat := 11
def fMode : Nat := 12
def fUser : Nat := 13
def fUserNull : Nat := 14
def fGroup : Nat := 15
def fGroupNull : Nat := 16

/-- `if (c) flag |= 1 << n`. -/
def setIf (c : Bool) (n : Nat) (flag : UInt64) : UInt64 :=
  if c then flag ||| ((1 : UInt64) <<< UInt64.ofNat n) else flag

/-- `flag & (1 << n)` as a condition. -/
def has (flag : UInt64) (n : Nat) : Bool := flag &&& ((1 : UInt64) <<< UInt64.ofNat n) != 0

/-- `(flag >> n) & 1` as a `bool`. -/
def bit (flag : UInt64) (n : Nat) : Bool := (flag >>> UInt64.ofNat n) &&& 1 != 0

/-- Flags of a file, store.c.inc:109-159. `strEq` of a string and `NULL` is false (src/common/type/string.c:729-748). -/
def flags (e : Env) (f : File) : UInt64 :=
  let flag := 0
  let flag := setIf f.checksumSha1.isSome fChecksum flag
  let flag := setIf f.checksumRepoSha1.isSome fChecksumRepo flag
  let flag := setIf f.copy fCopy flag
  let flag := setIf f.delta fDelta flag
  let flag := setIf f.resume fResume flag
  let flag := setIf f.checksumPage fChecksumPage flag
  let flag := setIf f.checksumPageError fChecksumPageError flag
  let flag := setIf f.checksumPageErrorList.isSome fChecksumPageErrorList flag
  let flag := setIf f.reference.isSome fReference flag
  let flag := setIf (f.bundleId != 0) fBundle flag
  let flag := setIf (f.blockIncrSize != 0) fBlockIncr flag
  let flag := setIf (f.sizeOriginal != f.size) fSizeOriginal flag
  let flag := setIf (f.mode != e.modeDefault) fMode flag
  let flag := setIf f.user.isNone fUserNull flag
  let flag := setIf (f.user.isSome && f.user != e.userDefault) fUser flag
  let flag := setIf f.group.isNone fGroupNull flag
  setIf (f.group.isSome && f.group != e.groupDefault) fGroup flag

/-! ## Packing -/

/-- `BLOCK_INCR_SIZE_FACTOR`, store.c.inc:13-14. -/
def factor : UInt64 := 8192

/-- `uint8_t buffer[512]`, store.c.inc:106. -/
def bufferSize : Nat := 512

/-- `HASH_TYPE_SHA1_SIZE`, src/common/crypto/hash.h. -/
def sha1Size : Nat := 20

/-- `sizeof(StringPub)` and `alignof(StringPub)`, src/common/type/string.h:113-118, on 64-bit systems. -/
def stringSize : Nat := 16
def stringAlign : Nat := 8

/-- `ALIGN_OFFSET`, src/common/macro.h:67. -/
def alignOffset (bytes : Nat) : Nat := stringAlign - bytes % stringAlign

/-- `cvtUInt64ToVarInt128(value, buffer, &bufferPos, sizeof(buffer))`. -/
def put (value : UInt64) (buf : List UInt8) : Res (List UInt8) := Varint.write value buf bufferSize

/-- `put` when a condition holds. -/
def putIf (c : Bool) (value : UInt64) (buf : List UInt8) : Res (List UInt8) := if c then put value buf else .ok buf

/-- `memcpy` of a checksum into the buffer, store.c.inc:178-190. The size of the buffer is not checked. -/
def putSum (sum : Option (List UInt8)) (buf : List UInt8) : Res (List UInt8) :=
  match sum with
  | none => .ok buf
  | some s =>
    if s.length < sha1Size ∨ bufferSize < buf.length + sha1Size then .error .ub else .ok (buf ++ s.take sha1Size)

/-- `strLstFindIdxP(…, .required = true)`, src/common/type/stringList.c and list.c:193-225 (the lists of owners and
references are never sorted, so that the search is linear): index of the first equal string. -/
def findIdx (l : List Str) (s : Str) : Res UInt64 :=
  match l.findIdx? (· == s) with
  | some i => .ok (UInt64.ofNat i)
  | none => .error .assert

/-- Write the index of a string when a condition holds. -/
def putIdxIf (c : Bool) (l : List Str) (s : Option Str) (buf : List UInt8) : Res (List UInt8) :=
  if c then
    match s with
    | none => .error .ub
    | some s => do put (← findIdx l s) buf
  else .ok buf

/-- Block incremental sizes, store.c.inc:226-234. -/
def putBlock (c : Bool) (f : File) (buf : List UInt8) : Res (List UInt8) :=
  if c then
    if f.blockIncrSize % factor ≠ 0 then .error .assert
    else do
      let buf ← put (f.blockIncrSize / factor) buf
      let buf ← put f.blockIncrChecksumSize buf
      put f.blockIncrMapSize buf
  else .ok buf

/-- Bundle, store.c.inc:219-224. -/
def putBundle (c : Bool) (f : File) (buf : List UInt8) : Res (List UInt8) :=
  if c then do
    let buf ← put f.bundleId buf
    put f.bundleOffset buf
  else .ok buf

/-- Subtraction of times. Overflow of a signed type is undefined. -/
def subTime (a b : Int64) : Res Int64 :=
  if a.toInt - b.toInt < -2 ^ 63 ∨ 2 ^ 63 ≤ a.toInt - b.toInt then .error .ub else .ok (a - b)

/-- The base time after a call, store.c.inc:170-173. -/
def baseTime (e : Env) (f : File) : Int64 := if e.base = -1 then f.timestamp else e.base

/-- The buffer, store.c.inc:161-234. -/
def packData (e : Env) (f : File) : Res (List UInt8) := do
  let flag := flags e f
  let buf ← put flag []
  let buf ← put f.size buf
  let buf ← putIf (has flag fSizeOriginal) f.sizeOriginal buf
  let buf ← put (Varint.toZigZag64 (← subTime (baseTime e f) f.timestamp)) buf
  let buf ← putSum f.checksumSha1 buf
  let buf ← putSum f.checksumRepoSha1 buf
  let buf ← putIdxIf f.reference.isSome e.references f.reference buf
  let buf ← putIf (has flag fMode) f.mode.toUInt64 buf
  let buf ← putIdxIf (has flag fUser) e.owners f.user buf
  let buf ← putIdxIf (has flag fGroup) e.owners f.group buf
  let buf ← put f.sizeRepo buf
  let buf ← putBundle (has flag fBundle) f buf
  putBlock (has flag fBlockIncr) f buf

/-- `manifestFilePack`, store.c.inc:94-270. The result includes the new value of `manifestPackBaseTime`. -/
def pack (e : Env) (f : File) : Res (Pack × Int64) := do
  let buf ← packData e f
  -- memory, lines 236-267
  let nameSize := f.name.length + 1
  let list := f.checksumPageErrorList.map fun l =>
    (stringSize + nameSize + (buf.length + alignOffset (nameSize + buf.length)), l)
  .ok ({ name := f.name, data := buf, list := list }, baseTime e f)

/-! ## Unpacking -/

/-- `cvtUInt64FromVarInt128((const uint8_t *)filePack, &bufferPos, UINT_MAX)`. There is no limit to what is read, so
reading more than was packed is undefined. -/
def get (rest : List UInt8) : Res (UInt64 × List UInt8) :=
  match Varint.read rest with
  | .ok r => .ok r
  | .error _ => .error .ub

/-- `get` when a condition holds, else a default. -/
def getIf (c : Bool) (dflt : UInt64) (rest : List UInt8) : Res (UInt64 × List UInt8) :=
  if c then get rest else .ok (dflt, rest)

/-- Pointer to a checksum, store.c.inc:313-325. -/
def getSum (c : Bool) (rest : List UInt8) : Res (Option (List UInt8) × List UInt8) :=
  if c then
    if rest.length < sha1Size then .error .ub else .ok (some (rest.take sha1Size), rest.drop sha1Size)
  else .ok (none, rest)

/-- `strLstGet(…, (unsigned int)…)` when a condition holds, else a default. An index that is out of range is an
assertion error (list.c:166-168). -/
def getIdxIf (c : Bool) (l : List Str) (dflt : Option Str) (rest : List UInt8) : Res (Option Str × List UInt8) :=
  if c then do
    let (v, rest) ← get rest
    match l[v.toUInt32.toNat]? with
    | some s => .ok (some s, rest)
    | none => .error .assert
  else .ok (dflt, rest)

/-- Bundle, store.c.inc:360-365. -/
def getBundle (c : Bool) (rest : List UInt8) : Res ((UInt64 × UInt64) × List UInt8) :=
  if c then do
    let (a, rest) ← get rest
    let (b, rest) ← get rest
    .ok ((a, b), rest)
  else .ok ((0, 0), rest)

/-- Block incremental sizes, store.c.inc:367-374. -/
def getBlock (c : Bool) (rest : List UInt8) : Res ((UInt64 × UInt64 × UInt64) × List UInt8) :=
  if c then do
    let (a, rest) ← get rest
    let (b, rest) ← get rest
    let (d, rest) ← get rest
    .ok ((a * factor, b, d), rest)
  else .ok ((0, 0, 0), rest)

/-- Pointer to the list of page errors, store.c.inc:379-380: the string object is expected at the next aligned
offset. There is nothing (or something else) at any other offset. -/
def getList (c : Bool) (p : Pack) (pos : Nat) : Res (Option Str) :=
  if c then
    match p.list with
    | some (off, l) => if off = pos + alignOffset pos then .ok (some l) else .error .ub
    | none => .error .ub
  else .ok none

/-- `manifestFileUnpack`, store.c.inc:272-383. -/
def unpack (e : Env) (p : Pack) : Res File := do
  -- line 281
  if e.base = -1 then .error .assert else
  let (flag, rest) ← get p.data
  let (size, rest) ← get rest
  let (sizeOriginal, rest) ← getIf (has flag fSizeOriginal) size rest
  let (time, rest) ← get rest
  let timestamp ← subTime e.base (Varint.fromZigZag64 time)
  let (sum, rest) ← getSum (has flag fChecksum) rest
  let (sumRepo, rest) ← getSum (has flag fChecksumRepo) rest
  let (reference, rest) ← getIdxIf (has flag fReference) e.references none rest
  let (mode, rest) ← getIf (has flag fMode) e.modeDefault.toUInt64 rest
  let (user, rest) ← getIdxIf (has flag fUser) e.owners (if has flag fUserNull then none else e.userDefault) rest
  let (group, rest) ← getIdxIf (has flag fGroup) e.owners (if has flag fGroupNull then none else e.groupDefault) rest
  let (sizeRepo, rest) ← get rest
  let (bundle, rest) ← getBundle (has flag fBundle) rest
  let (block, rest) ← getBlock (has flag fBlockIncr) rest
  let pos := stringSize + (p.name.length + 1) + (p.data.length - rest.length)
  let list ← getList (has flag fChecksumPageErrorList) p pos
  .ok {
    name := p.name, copy := bit flag fCopy, delta := bit flag fDelta, resume := bit flag fResume,
    checksumPage := bit flag fChecksumPage, checksumPageError := has flag fChecksumPageError,
    mode := mode.toUInt32, checksumSha1 := sum, checksumRepoSha1 := sumRepo, checksumPageErrorList := list,
    user := user, group := group, reference := reference, bundleId := bundle.1, bundleOffset := bundle.2,
    blockIncrSize := block.1, blockIncrChecksumSize := block.2.1, blockIncrMapSize := block.2.2,
    size := size, sizeOriginal := sizeOriginal, sizeRepo := sizeRepo, timestamp := timestamp }

/-! ## The list of files -/

/-- The manifest: what packing uses, and the list of packed files. -/
structure Store where
  env : Env
  files : List Pack
  deriving DecidableEq

/-- `manifestOwnerCache`, store.c.inc:19-33, with `strLstAddIfMissing` (stringList.c). -/
def ownerCache (o : Option Str) (owners : List Str) : List Str :=
  match o with
  | none => owners
  | some o => if o ∈ owners then owners else owners ++ [o]

/-- `manifestFileAdd`, store.c.inc:385-407. -/
def fileAdd (st : Store) (f : File) : Res Store := do
  let e := { st.env with owners := ownerCache f.group (ownerCache f.user st.env.owners) }
  let (p, base) ← pack e f
  .ok { env := { e with base := base }, files := st.files ++ [p] }

/-- The assertions of `manifestFilePackUpdate`, store.c.inc:422-426. -/
def updateOk (f : File) : Bool :=
  ((!f.checksumPage && !f.checksumPageError && f.checksumPageErrorList.isNone) ||
    (f.checksumPage && !f.checksumPageError && f.checksumPageErrorList.isNone) ||
    (f.checksumPage && f.checksumPageError)) &&
  (f.size != 0 || (f.bundleId == 0 && f.bundleOffset == 0))

/-- `manifestFileUpdateByIdx` and `manifestFileUpdate` after the file was found, store.c.inc:409-437, 489-524. Owners
are not added to the list of owners. -/
def fileUpdate (st : Store) (i : Nat) (f : File) : Res Store := do
  if updateOk f = false then .error .assert else
  if st.files.length ≤ i then .error .assert else
  let (p, base) ← pack st.env f
  .ok { env := { st.env with base := base }, files := st.files.set i p }

/-- `manifestFileRemove` after the file was found, store.c.inc:472-487. -/
def fileRemove (st : Store) (i : Nat) : Res Store :=
  if st.files.length ≤ i then .error .assert else .ok { st with files := st.files.eraseIdx i }

/-- A reference is added to the list, manifest.c:860 and serialize.c.inc:234. -/
def referenceAdd (st : Store) (s : Str) : Store :=
  { st with env := { st.env with references := st.env.references ++ [s] } }

/-- `manifestFile`, src/info/manifest/manifest.h:349-354. -/
def file (st : Store) (i : Nat) : Res File :=
  match st.files[i]? with
  | none => .error .assert
  | some p => unpack st.env p

end Verif.Manifest
