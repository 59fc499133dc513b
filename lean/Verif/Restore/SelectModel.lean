import Verif.Wal.Model
import Verif.StrLst.AntiModel

/-! # Model of the selective restore, src/command/restore/select.c.inc:229-423 and process.c.inc:165-177

The regular expressions are literal text and `[0-9]+` only. The `.` in the tablespace directory of PostgreSQL before 10
(`PG_9.6_…`) is taken literally; in the code it matches any character. Log messages are not modelled. -/

namespace Verif.Restore

open Num Wal StrLst

/-- `pg_data/base/`, src/info/manifest.h:37 and src/postgres/interface.h:77. -/
def basePath : Str := [0x70, 0x67, 0x5f, 0x64, 0x61, 0x74, 0x61, 0x2f, 0x62, 0x61, 0x73, 0x65, 0x2f]

/-- `pg_tblspc/`, src/info/manifest.h:38. -/
def tblspcPath : Str := [0x70, 0x67, 0x5f, 0x74, 0x62, 0x6c, 0x73, 0x70, 0x63, 0x2f]

/-- `/PG_VERSION`, src/postgres/interface.h:57. -/
def versionFile : Str := [0x2f, 0x50, 0x47, 0x5f, 0x56, 0x45, 0x52, 0x53, 0x49, 0x4f, 0x4e]

/-- `ManifestDb`, src/info/manifest.h:94-99. -/
structure Db where
  name : Str
  id : Nat
  deriving DecidableEq

/-- The name and tablespace id of `ManifestTarget`, src/info/manifest.h:170-180. -/
structure Target where
  name : Str
  tablespaceId : Nat
  deriving DecidableEq

/-- The parts of the manifest used: databases, files, targets and `pgTablespaceId` (src/postgres/interface.c). -/
structure Mf where
  dbs : List Db
  files : List Str
  targets : List Target
  tsId : Str

/-- `[0-9]`. -/
def isDigit (c : UInt8) : Bool := 0x30 ≤ c && c ≤ 0x39

/-- Match literal text at the start. -/
def lit (p s : Str) : Option Str := if p.isPrefixOf s then some (s.drop p.length) else none

/-- Match `[0-9]+` at the start. -/
def digits (s : Str) : Option Str := if s.takeWhile isDigit = [] then none else some (s.dropWhile isDigit)

/-- `^pg_data/base/[0-9]+/PG_VERSION`, select.c.inc:249. -/
def baseMatch (f : Str) : Bool := (((lit basePath f).bind digits).bind (lit versionFile)).isSome

/-- `^pg_tblspc/[0-9]+/<id>/[0-9]+/PG_VERSION`, select.c.inc:254-255. -/
def tblspcMatch (tsId f : Str) : Bool :=
  (((((lit tblspcPath f).bind digits).bind (lit (0x2f :: tsId ++ [0x2f]))).bind digits).bind (lit versionFile)).isSome

/-- `strBase(strPath(fileName))`, src/common/type/string.c:329-355 and 814-832: the component before the last `/`. -/
def parentBase (f : Str) : Str := ((split 0x2f f).reverse[1]?).getD []

/-- `pgDbIsSystem`, src/postgres/interface.c:138-156: `postgres`, `template0`, `template1`. -/
def isSystemName (n : Str) : Bool :=
  n == [0x70, 0x6f, 0x73, 0x74, 0x67, 0x72, 0x65, 0x73] ||
  n == [0x74, 0x65, 0x6d, 0x70, 0x6c, 0x61, 0x74, 0x65, 0x30] ||
  n == [0x74, 0x65, 0x6d, 0x70, 0x6c, 0x61, 0x74, 0x65, 0x31]

/-- `pgDbIsSystemId`, src/postgres/interface.c:158-167. -/
def isSystemId (id : Nat) : Bool := id < 16384

/-- `strLstAddIfMissing`, src/common/type/stringList.c. -/
def addIfMissing (l : List Str) (x : Str) : List Str := if l.contains x then l else l ++ [x]

/-- The ids of the system databases listed in the manifest, select.c.inc:262-274. -/
def systemIds (dbs : List Db) : List Str :=
  (dbs.filter (fun db => isSystemName db.name || isSystemId db.id)).map (fun db => uintToZ db.id)

/-- The loop over the files, select.c.inc:276-291: system ids and all ids. -/
def scan (tsId : Str) : List Str → List Str → List Str → Res (List Str × List Str)
  | [], sys, all => .ok (sys, all)
  | f :: fs, sys, all =>
    if baseMatch f || tblspcMatch tsId f then
      match toUIntBase 10 (parentBase f) with
      | .error e => .error e
      | .ok id => scan tsId fs (if isSystemId id then addIfMissing sys (parentBase f) else sys) (addIfMissing all (parentBase f))
    else scan tsId fs sys all

/-- Find a database given as id or as name, select.c.inc:311-320 and 334-343. -/
def resolve (dbs : List Db) (all : List Str) (x : Str) : Option Str :=
  if all.contains x then some x
  else match dbs.find? (fun db => db.name == x) with
    | none => none
    | some db => if all.contains (uintToZ db.id) then some (uintToZ db.id) else none

/-- The ids to exclude, select.c.inc:306-324. -/
def excludeIds (dbs : List Db) (all : List Str) : List Str → Res (List Str)
  | [] => .ok []
  | x :: xs =>
    match resolve dbs all x with
    | none => .error .dbMissing
    | some d =>
      match excludeIds dbs all xs with
      | .error e => .error e
      | .ok ds => .ok (d :: ds)

/-- Remove the included databases from the list, select.c.inc:329-355. -/
def includeLoop (dbs : List Db) (sys exc : List Str) : List Str → List Str → Res (List Str)
  | all, [] => .ok all
  | all, x :: xs =>
    match resolve dbs all x with
    | none => .error .dbMissing
    | some d =>
      if sys.contains d then .error .dbInvalid
      else if exc.contains d then .error .dbInvalid
      else includeLoop dbs sys exc (all.erase d) xs

/-- The databases to zero, given the lists of databases found, select.c.inc:293-369. -/
def choose (dbs : List Db) (sys all0 inc exc : List Str) : Res (List Str) :=
  let all := sortAsc all0
  if all = [] then .error .format
  else match excludeIds dbs all exc with
    | .error e => .error e
    | .ok excIds =>
      match includeLoop dbs sys excIds all inc with
      | .error e => .error e
      | .ok rest =>
        if inc = [] then .ok excIds
        else .ok (mergeAnti rest (mergeAnti (sortAsc sys) (sortAsc excIds)))

/-- `restoreSelectiveExpression`, select.c.inc:232-423: the databases in the expression; empty is no expression. -/
def selective (m : Mf) (inc exc : List Str) : Res (List Str) :=
  if inc = [] ∧ exc = [] then .ok []
  else match scan m.tsId m.files (systemIds m.dbs) (systemIds m.dbs) with
    | .error e => .error e
    | .ok (sys, all) => choose m.dbs sys all inc exc

/-- The alternatives of the expression for one database, select.c.inc:390-400. -/
def prefixes (m : Mf) (d : Str) : List Str :=
  (basePath ++ d ++ [0x2f]) ::
    (m.targets.filter (fun t => t.tablespaceId ≠ 0)).map (fun t => t.name ++ [0x2f] ++ m.tsId ++ [0x2f] ++ d ++ [0x2f])

/-- `restoreFileZeroed`, src/command/restore/process.c.inc:165-177. -/
def zeroed (m : Mf) (ids : List Str) (f : Str) : Bool :=
  (ids.any (fun d => (prefixes m d).any (fun p => p.isPrefixOf f))) && !(versionFile.isSuffixOf f)

end Verif.Restore
