import Verif.Manifest.PackModel
import Verif.Info.PgModel
import Verif.Encode.Model
import Verif.Wal.Model

/-! # Model of saving and loading the manifest (src/info/manifest/serialize.c.inc, src/info/manifest/manifest.c:671-765)

The text of the file and the checksum are those of `Verif.Info.save` and `Verif.Info.load`. Files are packed as in `Verif.Manifest.fileAdd`.

Modelled: the label and the list of references, targets, databases, files, links and paths with their defaults. Left out: the other
values of the sections `backup`, `backup:db`, `backup:option` and `metadata`, which each have a line of their own; the loader of
this model passes over them. -/

namespace Verif.Manifest

open Verif Verif.Json
open Verif.Info (Entry zstr backrestZ cipherZ)
open Verif.Info.Pg (saveSection lastOf)

/-! ## What is saved -/

/-- `ManifestPath`, src/info/manifest/manifest.h. -/
structure Path where
  name : Str
  mode : UInt32 := 0
  user : Option Str := none
  group : Option Str := none
  deriving DecidableEq

/-- `ManifestLink`, manifest.h. -/
structure Link where
  name : Str
  destination : Str
  user : Option Str := none
  group : Option Str := none
  deriving DecidableEq

/-- `ManifestTarget`, manifest.h. `link` is the type. -/
structure Target where
  name : Str
  link : Bool
  path : Str
  file : Option Str := none
  tablespaceId : UInt32 := 0
  tablespaceName : Option Str := none
  deriving DecidableEq

/-- `ManifestDb`, manifest.h. -/
structure Db where
  name : Str
  id : UInt32
  lastSystemId : UInt32
  deriving DecidableEq

/-- `Manifest`. Files are shown as `manifestFile` gives them. -/
structure Man where
  label : Str
  references : List Str
  targets : List Target
  dbs : List Db
  files : List File
  links : List Link
  paths : List Path
  deriving DecidableEq

/-! ## Names -/

/-- `backup` (serialize.c.inc 5) -/
def backupSec : Str := [98, 97, 99, 107, 117, 112]
/-- `backup:target` (serialize.c.inc 8) -/
def backupTargetSec : Str := [98, 97, 99, 107, 117, 112, 58, 116, 97, 114, 103, 101, 116]
/-- `db` (serialize.c.inc 10) -/
def dbSec : Str := [100, 98]
/-- `target:file` (serialize.c.inc 13) -/
def fileSec : Str := [116, 97, 114, 103, 101, 116, 58, 102, 105, 108, 101]
/-- `target:file:default` (serialize.c.inc 14) -/
def fileDefaultSec : Str := [116, 97, 114, 103, 101, 116, 58, 102, 105, 108, 101, 58, 100, 101, 102, 97, 117, 108, 116]
/-- `target:link` (serialize.c.inc 15) -/
def linkSec : Str := [116, 97, 114, 103, 101, 116, 58, 108, 105, 110, 107]
/-- `target:link:default` (serialize.c.inc 16) -/
def linkDefaultSec : Str := [116, 97, 114, 103, 101, 116, 58, 108, 105, 110, 107, 58, 100, 101, 102, 97, 117, 108, 116]
/-- `target:path` (serialize.c.inc 17) -/
def pathSec : Str := [116, 97, 114, 103, 101, 116, 58, 112, 97, 116, 104]
/-- `target:path:default` (serialize.c.inc 18) -/
def pathDefaultSec : Str := [116, 97, 114, 103, 101, 116, 58, 112, 97, 116, 104, 58, 100, 101, 102, 97, 117, 108, 116]
/-- `backup-label` (serialize.c.inc 26) -/
def labelKey : Str := [98, 97, 99, 107, 117, 112, 45, 108, 97, 98, 101, 108]
/-- `backup-reference` (serialize.c.inc 30) -/
def referencesKey : Str := [98, 97, 99, 107, 117, 112, 45, 114, 101, 102, 101, 114, 101, 110, 99, 101]
/-- `bi` (serialize.c.inc 35) -/
def blockKey : Str := [98, 105]
/-- `bic` (serialize.c.inc 36) -/
def blockSumKey : Str := [98, 105, 99]
/-- `bim` (serialize.c.inc 37) -/
def blockMapKey : Str := [98, 105, 109]
/-- `bni` (serialize.c.inc 38) -/
def bundleKey : Str := [98, 110, 105]
/-- `bno` (serialize.c.inc 39) -/
def offsetKey : Str := [98, 110, 111]
/-- `checksum` (serialize.c.inc 40) -/
def sumKey : Str := [99, 104, 101, 99, 107, 115, 117, 109]
/-- `checksum-page` (serialize.c.inc 42) -/
def pageKey : Str := [99, 104, 101, 99, 107, 115, 117, 109, 45, 112, 97, 103, 101]
/-- `checksum-page-error` (serialize.c.inc 43) -/
def pageErrorKey : Str := [99, 104, 101, 99, 107, 115, 117, 109, 45, 112, 97, 103, 101, 45, 101, 114, 114, 111, 114]
/-- `db-id` (serialize.c.inc 45) -/
def dbIdKey : Str := [100, 98, 45, 105, 100]
/-- `db-last-system-id` (serialize.c.inc 46) -/
def dbLastKey : Str := [100, 98, 45, 108, 97, 115, 116, 45, 115, 121, 115, 116, 101, 109, 45, 105, 100]
/-- `destination` (serialize.c.inc 49) -/
def destinationKey : Str := [100, 101, 115, 116, 105, 110, 97, 116, 105, 111, 110]
/-- `file` (serialize.c.inc 50) -/
def fileKey : Str := [102, 105, 108, 101]
/-- `group` (serialize.c.inc 51) -/
def groupKey : Str := [103, 114, 111, 117, 112]
/-- `mode` (serialize.c.inc 52) -/
def modeKey : Str := [109, 111, 100, 101]
/-- `path` (serialize.c.inc 53) -/
def pathKey : Str := [112, 97, 116, 104]
/-- `rck` (serialize.c.inc 41) -/
def sumRepoKey : Str := [114, 99, 107]
/-- `reference` (serialize.c.inc 54) -/
def referenceKey : Str := [114, 101, 102, 101, 114, 101, 110, 99, 101]
/-- `repo-size` (serialize.c.inc 57) -/
def sizeRepoKey : Str := [114, 101, 112, 111, 45, 115, 105, 122, 101]
/-- `size` (serialize.c.inc 55) -/
def sizeKey : Str := [115, 105, 122, 101]
/-- `szo` (serialize.c.inc 56) -/
def sizeOriginalKey : Str := [115, 122, 111]
/-- `tablespace-id` (serialize.c.inc 58) -/
def tablespaceIdKey : Str := [116, 97, 98, 108, 101, 115, 112, 97, 99, 101, 45, 105, 100]
/-- `tablespace-name` (serialize.c.inc 59) -/
def tablespaceNameKey : Str := [116, 97, 98, 108, 101, 115, 112, 97, 99, 101, 45, 110, 97, 109, 101]
/-- `timestamp` (serialize.c.inc 60) -/
def timestampKey : Str := [116, 105, 109, 101, 115, 116, 97, 109, 112]
/-- `type` (serialize.c.inc 61) -/
def typeKey : Str := [116, 121, 112, 101]
/-- `user` (serialize.c.inc 62) -/
def userKey : Str := [117, 115, 101, 114]
/-- `link` (serialize.c.inc 2) -/
def linkZ : Str := [108, 105, 110, 107]
/-- `path` (serialize.c.inc 3) -/
def pathZ : Str := [112, 97, 116, 104]
/-- `MANIFEST_TARGET_PGDATA` (manifest.h 25) -/
def pgdataZ : Str := [112, 103, 95, 100, 97, 116, 97]
/-- `@` (manifest.c 696) -/
def placeholderZ : Str := [64]

/-- `BLOCK_INCR_CHECKSUM_SIZE_MIN` (manifest.h 31) -/
def blockSumMin : Nat := 6

/-- `HASH_TYPE_SHA1_ZERO_BUF` (src/common/crypto/hash.c 23-25) -/
def zeroSum : List UInt8 :=
  [0xda, 0x39, 0xa3, 0xee, 0x5e, 0x6b, 0x4b, 0x0d, 0x32, 0x55, 0xbf, 0xef, 0x95, 0x60, 0x18, 0x90, 0xaf, 0xd8, 0x07, 0x09]

/-! ## Saving -/

/-- `lstSort(…, sortOrderAsc)` with the comparator for a name at the start of the structure (src/common/type/list.c). The order of equal
names is not specified; here they keep their order. -/
def insertBy {α : Type} (name : α → Str) (x : α) : List α → List α
  | [] => [x]
  | y :: l => if name y < name x then y :: insertBy name x l else x :: y :: l

def sortBy {α : Type} (name : α → Str) (l : List α) : List α := l.foldr (insertBy name) []

/-- `manifestOwnerVar` (serialize.c.inc 564-573). -/
def ownerVar : Option Str → Val
  | none => .bool false
  | some s => .str s

/-- `!varEq(manifestOwnerVar(…), …)`: variants of different types are not equal (src/common/type/variant.c). -/
def ownerDiffers (a b : Option Str) : Bool :=
  match a, b with
  | none, none => false
  | some a, some b => a != b
  | _, _ => true

/-- `%04o` -/
def modeStr (mode : UInt32) : Str := Num.fmtPad 4 8 false mode.toNat

/-- The value of a field: written by the function of its type, or text that is added as it is (`jsonWriteJson`, src/common/type/json.c
1537-1556). -/
inductive Out
  | val (v : Val)
  | raw (s : Str)

/-- A field is written. -/
def writeOut (st : Wr) : Out → Res Wr
  | .val v => writeVal st v
  | .raw s => do .ok (cat (← wpush st .string none) s)

/-- Keys and values are written. -/
def writeOuts (st : Wr) : List (Str × Out) → Res Wr
  | [] => .ok st
  | (k, o) :: l => do writeOuts (← writeOut (← writeKey st k) o) l

/-- `jsonWriteObjectBegin(jsonWriteNewP())` … `jsonWriteResult(jsonWriteObjectEnd(json))`. -/
def writeObject (l : List (Str × Out)) : Res Str := do
  let st ← writeObjectEnd (← writeOuts (← writeObjectBegin writeNew) l)
  .ok st.json

/-- The fields for which a condition holds. -/
def optFields {α : Type} (l : List (Bool × Str × α)) : List (Str × α) := l.flatMap fun x => if x.1 then [x.2] else []

/-- A number. -/
def numOut (n : UInt64) : Out := .val (.num n.toNat)

/-- A checksum. -/
def sumOut (s : Option (List UInt8)) : Out := .val (.str (Encode.encodeHex (s.getD [])))

/-- `ManifestSaveData` (serialize.c.inc 554-562, 1108-1118). -/
structure Defaults where
  user : Option Str
  group : Option Str
  fileMode : UInt32
  pathMode : UInt32

/-- Defaults are those of the base path (serialize.c.inc 1108-1118). `manifestPathFind` throws an error when there is none
(src/info/manifest/store.c.inc). -/
def defaults (m : Man) : Res Defaults :=
  match m.paths.find? (·.name == pgdataZ) with
  | none => .error .assert
  | some p => .ok ⟨p.user, p.group, p.mode &&& 0o640, p.mode⟩

/-- The fields of a file (serialize.c.inc 842-909). -/
def fileFields (d : Defaults) (f : File) : List (Bool × Str × Out) := [
  (f.blockIncrSize != 0, blockKey, numOut (f.blockIncrSize / factor)),
  (f.blockIncrSize != 0 && f.blockIncrChecksumSize != UInt64.ofNat blockSumMin, blockSumKey, numOut f.blockIncrChecksumSize),
  (f.blockIncrSize != 0 && f.blockIncrMapSize != 0, blockMapKey, numOut f.blockIncrMapSize),
  (f.bundleId != 0, bundleKey, numOut f.bundleId),
  (f.bundleId != 0 && f.bundleOffset != 0, offsetKey, numOut f.bundleOffset),
  (f.size != 0 && f.checksumSha1.isSome, sumKey, sumOut f.checksumSha1),
  (f.checksumPage, pageKey, .val (.bool !f.checksumPageError)),
  (f.checksumPage && f.checksumPageErrorList.isSome, pageErrorKey, .raw (f.checksumPageErrorList.getD [])),
  (ownerDiffers f.group d.group, groupKey, .val (ownerVar f.group)),
  (f.mode != d.fileMode, modeKey, .val (.str (modeStr f.mode))),
  (f.checksumRepoSha1.isSome, sumRepoKey, sumOut f.checksumRepoSha1),
  (f.reference.isSome, referenceKey, .val (.str (f.reference.getD []))),
  (f.sizeRepo != f.size, sizeRepoKey, numOut f.sizeRepo),
  (true, sizeKey, numOut f.size),
  (f.sizeOriginal != f.size, sizeOriginalKey, numOut f.sizeOriginal),
  (true, timestampKey, numOut f.timestamp.toUInt64),
  (ownerDiffers f.user d.user, userKey, .val (ownerVar f.user))]

/-- The fields of a target (serialize.c.inc 776-789). -/
def targetFields (t : Target) : List (Bool × Str × Out) := [
  (t.file.isSome, fileKey, .val (.str (t.file.getD []))),
  (true, pathKey, .val (.str t.path)),
  (t.tablespaceId != 0, tablespaceIdKey, .val (.str (Num.uintToZ t.tablespaceId.toNat))),
  (t.tablespaceName.isSome, tablespaceNameKey, .val (.str (t.tablespaceName.getD []))),
  (true, typeKey, .val (.str (if t.link then linkZ else pathZ)))]

/-- The fields of a database (serialize.c.inc 810-811). -/
def dbFields (d : Db) : List (Bool × Str × Out) := [
  (true, dbIdKey, .val (.num d.id.toNat)),
  (true, dbLastKey, .val (.num d.lastSystemId.toNat))]

/-- The fields of a link (serialize.c.inc 940-946). -/
def linkFields (d : Defaults) (l : Link) : List (Bool × Str × Out) := [
  (true, destinationKey, .val (.str l.destination)),
  (ownerDiffers l.group d.group, groupKey, .val (ownerVar l.group)),
  (ownerDiffers l.user d.user, userKey, .val (ownerVar l.user))]

/-- The fields of a path (serialize.c.inc 979-986). -/
def pathFields (d : Defaults) (p : Path) : List (Bool × Str × Out) := [
  (ownerDiffers p.group d.group, groupKey, .val (ownerVar p.group)),
  (p.mode != d.pathMode, modeKey, .val (.str (modeStr p.mode))),
  (ownerDiffers p.user d.user, userKey, .val (ownerVar p.user))]

/-- `infoSaveValue` of an object. -/
def objectEntry (sec name : Str) (l : List (Bool × Str × Out)) : Res Entry := do .ok ⟨sec, name, ← writeObject (optFields l)⟩

/-- `infoSaveValue` of a value. -/
def valueEntry (sec name : Str) (v : Val) : Res Entry := do .ok ⟨sec, name, ← jsonFromVar v⟩

/-- `strLstJoin(…, ",")` (src/common/type/stringList.c). -/
def joinComma : List Str → Str
  | [] => []
  | [s] => s
  | s :: t => s ++ 44 :: joinComma t

/-- The sections with their values in the order in which they are saved (`manifestSaveCallback`, serialize.c.inc 575-1008). -/
def sections (m : Man) (d : Defaults) : List (Str × Res (List Entry)) := [
  (backupSec, do
    let label ← valueEntry backupSec labelKey (.str m.label)
    let references ← valueEntry backupSec referencesKey (.str (joinComma m.references))
    .ok [label, references]),
  (backupTargetSec, m.targets.mapM fun t => objectEntry backupTargetSec t.name (targetFields t)),
  (dbSec, m.dbs.mapM fun t => objectEntry dbSec t.name (dbFields t)),
  (fileSec, (sortBy (·.name) m.files).mapM fun t => objectEntry fileSec t.name (fileFields d t)),
  (fileDefaultSec, do
    let group ← valueEntry fileDefaultSec groupKey (ownerVar d.group)
    let mode ← valueEntry fileDefaultSec modeKey (.str (modeStr d.fileMode))
    let user ← valueEntry fileDefaultSec userKey (ownerVar d.user)
    .ok [group, mode, user]),
  (linkSec, m.links.mapM fun t => objectEntry linkSec t.name (linkFields d t)),
  (linkDefaultSec,
    if m.links = [] then .ok []
    else do
      let group ← valueEntry linkDefaultSec groupKey (ownerVar d.group)
      let user ← valueEntry linkDefaultSec userKey (ownerVar d.user)
      .ok [group, user]),
  (pathSec, m.paths.mapM fun t => objectEntry pathSec t.name (pathFields d t)),
  (pathDefaultSec, do
    let group ← valueEntry pathDefaultSec groupKey (ownerVar d.group)
    let mode ← valueEntry pathDefaultSec modeKey (.str (modeStr d.pathMode))
    let user ← valueEntry pathDefaultSec userKey (ownerVar d.user)
    .ok [group, mode, user])]

/-- A call of the callback: the sections between the last one that was saved and the next one. -/
def callback (last next : Option Str) : List (Str × Res (List Entry)) → Res (List Entry)
  | [] => .ok []
  | (sec, values) :: l =>
    if saveSection last sec next then do
      let a ← values
      let b ← callback (lastOf last a) next l
      .ok (a ++ b)
    else callback last next l

/-- `manifestSave` (serialize.c.inc 1092-1126) with `infoSave` (src/info/info.c 343-403), which calls the callback before the section
`backrest`, before the section `cipher` when there is a passphrase, and at the end. -/
def save (H : Str → Str) (m : Man) (pass : Option Str) : Res Str := do
  let d ← defaults m
  let before ← callback none (some backrestZ) (sections m d)
  match pass with
  | none => do
    let after ← callback (some backrestZ) none (sections m d)
    Info.save H before none after
  | some pass => do
    let between ← callback (some backrestZ) (some cipherZ) (sections m d)
    let after ← callback (some cipherZ) none (sections m d)
    Info.save H before (some (between, pass)) after

/-! ## Loading -/

/-- `manifestOwnerGet` (serialize.c.inc 103-122). `varStr` does not check the type and there is no type of a missing value. -/
def ownerGet : Val → Res (Option Str)
  | .bool true => .error .format
  | .bool false => .ok none
  | .str s => .ok (some s)
  | _ => .error .ub

/-- `manifestOwnerDefaultGet` (serialize.c.inc 124-144). -/
def ownerDefaultGet : Val → Res Val
  | .bool true => .error .format
  | .null => .error .ub
  | v => .ok v

/-- The value of a key that may be missing. -/
def optKey {α : Type} (k : Str) (rd : Rd → Res (α × Rd)) (dflt : α) (st : Rd) : Res (α × Rd) := do
  let (found, st) ← readKeyExpect k st
  if found then rd st else .ok (dflt, st)

/-- The value of a key that must be there. -/
def needKey {α : Type} (k : Str) (rd : Rd → Res (α × Rd)) (st : Rd) : Res (α × Rd) := do
  let (found, st) ← readKeyExpect k st
  if found then rd st else .error .format

/-- A number of 64 bits. -/
def rdNum (st : Rd) : Res (UInt64 × Rd) := do
  let (n, st) ← readUInt64 st
  .ok (UInt64.ofNat n, st)

/-- A number of 32 bits. -/
def rdUInt (st : Rd) : Res (UInt32 × Rd) := do
  let (n, st) ← readUInt st
  .ok (UInt32.ofNat n, st)

/-- A string that is used without a check for `NULL`. -/
def rdStr (st : Rd) : Res (Str × Rd) := do
  let (s, st) ← readStr st
  match s with
  | none => .error .ub
  | some s => .ok (s, st)

/-- `bufPtr(bufNewDecode(encodingHex, jsonReadStr(json)))`. `sgn` tells if `char` is signed. -/
def rdSum (sgn : Bool) (st : Rd) : Res (Option (List UInt8) × Rd) := do
  let (s, st) ← rdStr st
  let b ← Encode.decodeHex sgn s
  .ok (some b, st)

/-- `manifestOwnerGet(jsonReadVar(json))` -/
def rdOwner (st : Rd) : Res (Option Str × Rd) := do
  let (v, st) ← jsonReadVar st
  let o ← ownerGet v
  .ok (o, st)

/-- `cvtZToMode(strZ(jsonReadStr(json)))` (src/common/type/convert.c 515-525) -/
def rdMode (st : Rd) : Res (UInt32 × Rd) := do
  let (s, st) ← rdStr st
  let n ← Num.toUIntBase 8 (zstr s)
  .ok (UInt32.ofNat n, st)

/-- `(time_t)jsonReadInt64(json)` -/
def rdTime (st : Rd) : Res (Int64 × Rd) := do
  let (n, st) ← readInt64 st
  .ok (Int64.ofInt n, st)

/-- `jsonFromVar(jsonReadVar(json))` -/
def rdJson (st : Rd) : Res (Option Str × Rd) := do
  let (v, st) ← jsonReadVar st
  let s ← jsonFromVar v
  .ok (some s, st)

/-- The value of a key that may be missing, marked when it is found. -/
def rdSome {α : Type} (rd : Rd → Res (α × Rd)) (st : Rd) : Res (Option α × Rd) := do
  let (a, st) ← rd st
  .ok (some a, st)

/-- Block incremental sizes (serialize.c.inc 173-185). -/
def rdBlock (st : Rd) : Res ((UInt64 × UInt64 × UInt64) × Rd) := do
  let (found, st) ← readKeyExpect blockKey st
  if found then do
    let (n, st) ← rdNum st
    let (c, st) ← optKey blockSumKey rdNum (UInt64.ofNat blockSumMin) st
    let (m, st) ← optKey blockMapKey rdNum 0 st
    .ok ((n * factor, c, m), st)
  else .ok ((0, 0, 0), st)

/-- Bundle (serialize.c.inc 187-194). -/
def rdBundle (st : Rd) : Res ((UInt64 × UInt64) × Rd) := do
  let (found, st) ← readKeyExpect bundleKey st
  if found then do
    let (n, st) ← rdNum st
    let (c, st) ← optKey offsetKey rdNum 0 st
    .ok ((n, c), st)
  else .ok ((0, 0), st)

/-- Page checksums (serialize.c.inc 201-209): whether there are any, whether there is an error and the list of errors. -/
def rdPage (st : Rd) : Res ((Bool × Bool × Option Str) × Rd) := do
  let (found, st) ← readKeyExpect pageKey st
  if found then do
    let (b, st) ← readBool st
    let (l, st) ← optKey pageErrorKey rdJson none st
    .ok ((true, !b, l), st)
  else .ok ((false, false, none), st)

/-- A file (serialize.c.inc 167-277), with the defaults of the manifest for what is missing. The reference is not looked up here. -/
def loadFile (sgn : Bool) (env : Env) (e : Entry) : Res File := do
  let st ← readObjectBegin (readNew e.val)
  let (block, st) ← rdBlock st
  let (bundle, st) ← rdBundle st
  let (sum, st) ← optKey sumKey (rdSum sgn) none st
  let (page, st) ← rdPage st
  let (group, st) ← optKey groupKey rdOwner env.groupDefault st
  let (mode, st) ← optKey modeKey rdMode env.modeDefault st
  let (sumRepo, st) ← optKey sumRepoKey (rdSum sgn) none st
  let (reference, st) ← optKey referenceKey readStr none st
  let (sizeRepo, st) ← optKey sizeRepoKey (rdSome rdNum) none st
  let (size, st) ← needKey sizeKey rdNum st
  let (sizeOriginal, st) ← optKey sizeOriginalKey rdNum size st
  let (timestamp, st) ← needKey timestampKey rdTime st
  let (user, _) ← optKey userKey rdOwner env.userDefault st
  .ok {
    name := e.key, checksumPage := page.1, checksumPageError := page.2.1, mode := mode
    checksumSha1 := if size = 0 then some zeroSum else sum
    checksumRepoSha1 := sumRepo, checksumPageErrorList := page.2.2, user := user, group := group, reference := reference
    bundleId := bundle.1, bundleOffset := bundle.2, blockIncrSize := block.1, blockIncrChecksumSize := block.2.1
    blockIncrMapSize := block.2.2, size := size, sizeOriginal := sizeOriginal, sizeRepo := sizeRepo.getD size, timestamp := timestamp }

/-- `ManifestLoadFound` and the values (serialize.c.inc 78-85): what was not found is `none`. -/
structure PathLd where
  name : Str
  group : Option (Option Str)
  mode : Option UInt32
  user : Option (Option Str)

structure LinkLd where
  name : Str
  destination : Str
  group : Option (Option Str)
  user : Option (Option Str)

/-- A path (serialize.c.inc 282-308). -/
def loadPath (e : Entry) : Res PathLd := do
  let st ← readObjectBegin (readNew e.val)
  let (group, st) ← optKey groupKey (rdSome rdOwner) none st
  let (mode, st) ← optKey modeKey (rdSome rdMode) none st
  let (user, _) ← optKey userKey (rdSome rdOwner) none st
  .ok ⟨e.key, group, mode, user⟩

/-- A link (serialize.c.inc 311-336). -/
def loadLink (e : Entry) : Res LinkLd := do
  let st ← readObjectBegin (readNew e.val)
  let (destination, st) ← rdStr (← readKeyRequire destinationKey st)
  let (group, st) ← optKey groupKey (rdSome rdOwner) none st
  let (user, _) ← optKey userKey (rdSome rdOwner) none st
  .ok ⟨e.key, destination, group, user⟩

/-- The tablespace of a target (serialize.c.inc 404-409). -/
def rdTablespace (st : Rd) : Res ((UInt32 × Option Str) × Rd) := do
  let (found, st) ← readKeyExpect tablespaceIdKey st
  if found then do
    let (s, st) ← rdStr st
    let id ← Num.toUIntBase 10 (zstr s)
    let (name, st) ← readStr (← readKeyRequire tablespaceNameKey st)
    .ok ((UInt32.ofNat id, name), st)
  else .ok ((0, none), st)

/-- A target (serialize.c.inc 391-417). -/
def loadTarget (e : Entry) : Res Target := do
  let st ← readObjectBegin (readNew e.val)
  let (file, st) ← optKey fileKey readStr none st
  let (path, st) ← rdStr (← readKeyRequire pathKey st)
  let (tablespace, st) ← rdTablespace st
  let (type, _) ← rdStr (← readKeyRequire typeKey st)
  if type = linkZ ∨ type = pathZ then
    .ok { name := e.key, link := type != pathZ, path := path, file := file, tablespaceId := tablespace.1, tablespaceName := tablespace.2 }
  else .error .assert

/-- A database (serialize.c.inc 420-433). -/
def loadDb (e : Entry) : Res Db := do
  let st ← readObjectBegin (readNew e.val)
  let (id, st) ← rdUInt (← readKeyRequire dbIdKey st)
  let (last, _) ← rdUInt (← readKeyRequire dbLastKey st)
  .ok ⟨e.key, id, last⟩

/-- `ManifestLoadData` and the manifest (serialize.c.inc 87-101). A default that was not set is `none`. -/
structure Ld where
  store : Store
  label : Option Str := none
  referencesFound : Bool := false
  targets : List Target := []
  dbs : List Db := []
  links : List LinkLd := []
  paths : List PathLd := []
  linkGroup : Option Val := none
  linkUser : Option Val := none
  pathGroup : Option Val := none
  pathMode : UInt32 := 0
  pathUser : Option Val := none

/-- Owners are added to the list (`manifestOwnerCache`, store.c.inc 19-33). -/
def addOwner (o : Option Str) (st : Store) : Store := { st with env := { st.env with owners := ownerCache o st.env.owners } }

/-- A reference that is found in a file when there is no list of references (serialize.c.inc 233-234). -/
def addReference (found : Bool) (r : Option Str) (st : Store) : Res Store :=
  if found then .ok st
  else
    match r with
    | none => .ok st
    | some r => .ok (if r ∈ st.env.references then st else referenceAdd st r)

/-- `manifestLoadCallback` (serialize.c.inc 146-551). -/
def loadEntry (sgn : Bool) (st : Ld) (e : Entry) : Res Ld :=
  if e.sec = fileSec then do
    let f ← loadFile sgn st.store.env e
    let store ← addReference st.referencesFound f.reference st.store
    let store ← fileAdd store f
    .ok { st with store := store }
  else if e.sec = pathSec then do
    let p ← loadPath e
    .ok { st with paths := st.paths ++ [p], store := addOwner (p.user.getD none) (addOwner (p.group.getD none) st.store) }
  else if e.sec = linkSec then do
    let p ← loadLink e
    .ok { st with links := st.links ++ [p], store := addOwner (p.user.getD none) (addOwner (p.group.getD none) st.store) }
  else if e.sec = fileDefaultSec then
    if e.key = modeKey then do
      let (m, _) ← rdMode (readNew e.val)
      .ok { st with store := { st.store with env := { st.store.env with modeDefault := m } } }
    else do
      let (v, _) ← jsonReadVar (readNew e.val)
      if e.key = groupKey then do
        let o ← ownerGet v
        .ok { st with store := { st.store with env := { st.store.env with groupDefault := o } } }
      else if e.key = userKey then do
        let o ← ownerGet v
        .ok { st with store := { st.store with env := { st.store.env with userDefault := o } } }
      else .ok st
  else if e.sec = pathDefaultSec then
    if e.key = modeKey then do
      let (m, _) ← rdMode (readNew e.val)
      .ok { st with pathMode := m }
    else do
      let (v, _) ← jsonReadVar (readNew e.val)
      if e.key = groupKey then do
        let o ← ownerDefaultGet v
        .ok { st with pathGroup := some o }
      else if e.key = userKey then do
        let o ← ownerDefaultGet v
        .ok { st with pathUser := some o }
      else .ok st
  else if e.sec = linkDefaultSec then do
    let (v, _) ← jsonReadVar (readNew e.val)
    if e.key = groupKey then do
      let o ← ownerDefaultGet v
      .ok { st with linkGroup := some o }
    else if e.key = userKey then do
      let o ← ownerDefaultGet v
      .ok { st with linkUser := some o }
    else .ok st
  else if e.sec = backupTargetSec then do
    let t ← loadTarget e
    .ok { st with targets := st.targets ++ [t] }
  else if e.sec = dbSec then do
    let t ← loadDb e
    .ok { st with dbs := st.dbs ++ [t] }
  else if e.sec = backupSec then
    if e.key = labelKey then do
      let (s, _) ← readStr (readNew e.val)
      .ok { st with label := s }
    else if e.key = referencesKey then do
      let (s, _) ← rdStr (readNew e.val)
      .ok { st with store := { st.store with env := { st.store.env with references := Wal.split 44 s } }, referencesFound := true }
    else .ok st
  else .ok st

/-- What is loaded. -/
structure Loaded where
  store : Store
  label : Option Str
  targets : List Target
  dbs : List Db
  links : List Link
  paths : List Path
  pass : Option Str

/-- A default (`manifestOwnerGet`, manifest.c 723, 726, 736, 742). There is no type of a default that was not set. -/
def useDefault (d : Option Val) : Option (Option Str) → Res (Option Str)
  | some o => .ok o
  | none =>
    match d with
    | none => .error .ub
    | some v => ownerGet v

/-- Link defaults (manifest.c 716-727). -/
def linkDefault (st : Ld) (l : LinkLd) : Res Link := do
  let group ← useDefault st.linkGroup l.group
  let user ← useDefault st.linkUser l.user
  .ok { name := l.name, destination := l.destination, user := user, group := group }

/-- Path defaults (manifest.c 729-743). -/
def pathDefault (st : Ld) (p : PathLd) : Res Path := do
  let group ← useDefault st.pathGroup p.group
  let user ← useDefault st.pathUser p.user
  .ok { name := p.name, mode := p.mode.getD st.pathMode, user := user, group := group }

/-- Owners that are defaults are added to the list as well (manifest.c 723, 726, 736, 742). -/
def addOwners (l : List (Option Str)) (st : Store) : Store := l.foldl (fun st o => addOwner o st) st

/-- The label is added to the references when there was no list (manifest.c 710-714). -/
def addLabel (st : Ld) : Res Store := addReference st.referencesFound st.label st.store

/-- `manifestNewLoad` (manifest.c 671-765). The callback is called for all values after the file was read; in the code it is called as each
value is read. `base` is the static variable `manifestPackBaseTime`. -/
def load (buffer : Nat) (H : Str → Str) (sgn : Bool) (base : Int64) (text : Str) : Res Loaded := do
  let r ← Info.load buffer H text
  let st ← r.out.foldlM (loadEntry sgn) {
    store := {
      env := {
        owners := [], references := [], userDefault := some placeholderZ, groupDefault := some placeholderZ, modeDefault := 0xffffffff
        base := base }
      files := [] } }
  let store ← addLabel st
  let links ← st.links.mapM (linkDefault st)
  let paths ← st.paths.mapM (pathDefault st)
  let store := addOwners (links.flatMap (fun l => [l.group, l.user]) ++ paths.flatMap (fun p => [p.group, p.user])) store
  let targets := sortBy (·.name) st.targets
  if targets.any (·.name == pgdataZ) then
    .ok {
      store := { store with files := sortBy (·.name) store.files }
      label := st.label, targets := targets, dbs := sortBy (·.name) st.dbs, links := sortBy (·.name) links
      paths := sortBy (·.name) paths, pass := r.pass }
  else .error .assert

end Verif.Manifest
