import Verif.Manifest.UnlogModel
import Verif.Num.Model

/-! # Model of the files, paths and links of a new manifest (src/info/manifest/build.c.inc 97-508, manifest.c 77-305)

The data directory is a tree. A link in it is given with what it leads to after following all links, and with the information whether its
destination is again a link. Names are strings of C. Modes, owners, times and the size of blocks are left out. -/

namespace Verif.Manifest.Build

open Verif

/-! ## Names (src/postgres/interface.h 14-78) -/

/-- `pgsql_tmp` -/
def tmpZ : Str := [112, 103, 115, 113, 108, 95, 116, 109, 112]
/-- `pg_internal.init` -/
def initFileZ : Str := [112, 103, 95, 105, 110, 116, 101, 114, 110, 97, 108, 46, 105, 110, 105, 116]
/-- `archive_status` -/
def archiveStatusZ : Str := [97, 114, 99, 104, 105, 118, 101, 95, 115, 116, 97, 116, 117, 115]
/-- `pg_filenode.map` -/
def filenodeMapZ : Str := [112, 103, 95, 102, 105, 108, 101, 110, 111, 100, 101, 46, 109, 97, 112]
/-- `PG_VERSION` -/
def pgVersionZ : Str := [80, 71, 95, 86, 69, 82, 83, 73, 79, 78]
/-- `pg_control` -/
def pgControlZ : Str := [112, 103, 95, 99, 111, 110, 116, 114, 111, 108]
/-- `global` -/
def globalDirZ : Str := [103, 108, 111, 98, 97, 108]
/-- `recovery.signal` -/
def recoverySignalZ : Str := [114, 101, 99, 111, 118, 101, 114, 121, 46, 115, 105, 103, 110, 97, 108]
/-- `standby.signal` -/
def standbySignalZ : Str := [115, 116, 97, 110, 100, 98, 121, 46, 115, 105, 103, 110, 97, 108]
/-- `recovery.conf` -/
def recoveryConfZ : Str := [114, 101, 99, 111, 118, 101, 114, 121, 46, 99, 111, 110, 102]
/-- `recovery.done` -/
def recoveryDoneZ : Str := [114, 101, 99, 111, 118, 101, 114, 121, 46, 100, 111, 110, 101]
/-- `backup_manifest` -/
def backupManifestZ : Str := [98, 97, 99, 107, 117, 112, 95, 109, 97, 110, 105, 102, 101, 115, 116]
/-- `backup_manifest.tmp` -/
def backupManifestTmpZ : Str := [98, 97, 99, 107, 117, 112, 95, 109, 97, 110, 105, 102, 101, 115, 116, 46, 116, 109, 112]

/-- `pg_dynshmem`, `pg_notify`, `pg_replslot`, `pg_serial`, `pg_snapshots`, `pg_stat_tmp`, `pg_subtrans` -/
def resetDirs : List Str :=
  [[112, 103, 95, 100, 121, 110, 115, 104, 109, 101, 109],
   [112, 103, 95, 110, 111, 116, 105, 102, 121],
   [112, 103, 95, 114, 101, 112, 108, 115, 108, 111, 116],
   [112, 103, 95, 115, 101, 114, 105, 97, 108],
   [112, 103, 95, 115, 110, 97, 112, 115, 104, 111, 116, 115],
   [112, 103, 95, 115, 116, 97, 116, 95, 116, 109, 112],
   [112, 103, 95, 115, 117, 98, 116, 114, 97, 110, 115]]

/-- `postgresql.auto.conf.tmp`, `backup_label`, `backup_label.old`, `postmaster.opts`, `postmaster.pid` -/
def rootFiles : List Str :=
  [[112, 111, 115, 116, 103, 114, 101, 115, 113, 108, 46, 97, 117, 116, 111, 46, 99, 111, 110, 102, 46, 116, 109, 112],
   [98, 97, 99, 107, 117, 112, 95, 108, 97, 98, 101, 108],
   [98, 97, 99, 107, 117, 112, 95, 108, 97, 98, 101, 108, 46, 111, 108, 100],
   [112, 111, 115, 116, 109, 97, 115, 116, 101, 114, 46, 111, 112, 116, 115],
   [112, 111, 115, 116, 109, 97, 115, 116, 101, 114, 46, 112, 105, 100]]

/-! ## Storage -/

/-- What a link leads to. -/
inductive Dest
  | missing
  | file (size : Nat)
  | special
  | path
  deriving DecidableEq, Repr

/-- The entries of a directory. For a link: the text of the link, whether its destination is a link, what it leads to, and the entries
when it leads to a directory. -/
inductive DTree
  | nil
  | file (name : Str) (size : Nat) (rest : DTree)
  | special (name : Str) (rest : DTree)
  | path (name : Str) (children : DTree) (rest : DTree)
  | link (name : Str) (dest : Str) (twice : Bool) (target : Dest) (children : DTree) (rest : DTree)
  deriving DecidableEq, Repr

/-! ## The manifest -/

/-- What is added to the manifest. A target of a link that is no tablespace has the identifier zero and no name. -/
inductive Entry
  | file (name : Str) (size : Nat) (copy page : Bool)
  | path (name : Str)
  | link (name : Str) (dest : Str)
  | target (name : Str) (id : Nat) (tsName : Str)
  deriving DecidableEq, Repr

/-- The parameters of `manifestNewBuild` (manifest.c 77-81): the tablespace identifier, the name of the directory of the WAL
(`pgWalPath`), the version of PostgreSQL, the options, the exclusions as given and the tablespaces of the database. `check` is
`manifestLinkCheckOne`, see LinkModel. -/
structure Cfg where
  ts : Str
  wal : Str
  version : Nat
  online : Bool
  checksumPage : Bool
  bundle : Bool
  exclude : List Str
  tablespaces : Option (List (Nat × Str))
  check : List Entry → Res Unit

/-- `pg_data/` and a name -/
def inData (n : Str) : Str := pgdataZ ++ 47 :: n

/-- `excludeSingle` and `excludeContent` (manifest.c 147-170). -/
def excludeSingle (c : Cfg) : List Str := (c.exclude.map inData).filter fun e => e.getLast? != some 47
def excludeContent (c : Cfg) : List Str := ((c.exclude.map inData).filter fun e => e.getLast? == some 47).map List.dropLast

/-- `pg_data/pg_tblspc` -/
def tblspcDirZ : Str := inData pgTblspcZ

/-- An entry of any type that is not looked at (build.c.inc 118-137). -/
def skipAny (c : Cfg) (parent n : Str) : Bool :=
  tmpZ.isPrefixOf n || (excludeSingle c).contains (parent ++ 47 :: n)

/-- A directory that is added without its contents (build.c.inc 165-214). -/
def skipContent (c : Cfg) (parent n : Str) : Bool :=
  (excludeContent c).contains (parent ++ 47 :: n) || (parent == pgdataZ && resetDirs.contains n) ||
  (c.online && parent == inData c.wal && n == archiveStatusZ)

/-- `\.[0-9]+` anywhere in a string. -/
def dotDigit : Str → Bool
  | [] => false
  | [_] => false
  | a :: b :: r => (a == 46 && isDig b) || dotDigit (b :: r)

/-- `pg_internal.init` and its temporary files (build.c.inc 250-256). -/
def internalInit (n : Str) : Bool :=
  initFileZ.isPrefixOf n && (n.length == initFileZ.length || dotDigit (n.drop initFileZ.length))

/-- A file of the data directory that is left out (build.c.inc 264-279); `PG_VERSION_12` is 120000 (src/postgres/version.auto.h 15-16). -/
def skipRoot (c : Cfg) (n : Str) : Bool :=
  ((n == recoverySignalZ || n == standbySignalZ) && 120000 ≤ c.version) ||
  ((n == recoveryConfZ || n == recoveryDoneZ) && c.version < 120000) ||
  ((n == backupManifestZ || n == backupManifestTmpZ) && 130000 ≤ c.version) ||
  rootFiles.contains n

/-- `^t[0-9]+_` followed by the name of a relation (manifest.c 143). What follows the digits is not a digit. -/
def tempRel : Str → Bool
  | 116 :: s =>
    !(s.takeWhile isDig).isEmpty &&
      match s.dropWhile isDig with
      | 95 :: q => relName q
      | _ => false
  | _ => false

/-- A file that is left out (build.c.inc 250-292). -/
def skipFile (c : Cfg) (parent : Str) (db : Bool) (n : Str) : Bool :=
  (db && internalInit n) || (parent == pgdataZ && skipRoot c n) || (c.online && parent == inData c.wal) || (db && tempRel n)

/-- `strEndsWithZ` -/
def endsWith (s e : Str) : Bool := e.isSuffixOf s

/-- The file that is added (build.c.inc 294-330). -/
def fileEntry (c : Cfg) (parent : Str) (db : Bool) (n : Str) (size : Nat) : Entry :=
  let name := parent ++ 47 :: n
  .file name size (!(size == 0 && c.bundle))
    (db && c.checksumPage && !endsWith name (47 :: filenodeMapZ) && !endsWith name (47 :: pgVersionZ) &&
      !(name == inData (globalDirZ ++ 47 :: pgControlZ)))

/-- A file (build.c.inc 118-137, 240-332). `LinkExpectedError` is shown as `linkDestination`. -/
def addFile (c : Cfg) (parent : Str) (db : Bool) (n : Str) (size : Nat) (out : List Entry) : Res (List Entry) :=
  if skipAny c parent n then .ok out
  else if parent == tblspcDirZ then .error .linkDestination
  else if skipFile c parent db n then .ok out
  else .ok (out ++ [fileEntry c parent db n size])

/-- The name of a tablespace (build.c.inc 381-410). -/
def tablespaceName (c : Cfg) (id : Nat) (n : Str) : Res Str :=
  match c.tablespaces with
  | none => .ok (116 :: 115 :: n)
  | some l =>
    match (l.filter fun t => t.1 == id).getLast? with
    | some t => .ok t.2
    | none => .error .assert

/-- The type of an entry of a directory after following links (build.c.inc 455-457). -/
def lookup (name : Str) : DTree → Dest
  | .nil => .missing
  | .file n s rest => if n = name then .file s else lookup name rest
  | .special n rest => if n = name then .special else lookup name rest
  | .path n _ rest => if n = name then .path else lookup name rest
  | .link n _ _ d _ rest => if n = name then d else lookup name rest

/-- What is added for a tablespace before its contents (build.c.inc 371-485). -/
def tablespaceEntries (out : List Entry) (n dest : Str) (id : Nat) (tsName : Str) : List Entry :=
  (if .path pgTblspcZ ∈ out then out else out ++ [.path pgTblspcZ]) ++
    [.path (pgTblspcZ ++ 47 :: n), .target (pgTblspcZ ++ 47 :: n) id tsName, .link (tblspcDirZ ++ 47 :: n) dest]

/-- A link to a tablespace, up to its contents (build.c.inc 371-492). `d` is what is found at the name of the version in the destination. -/
def tablespace (c : Cfg) (out : List Entry) (n dest : Str) (d : Dest) : Res (List Entry) :=
  match Num.toUIntBase 10 n with
  | .error e => .error e
  | .ok id =>
    match tablespaceName c id n with
    | .error e => .error e
    | .ok tsName =>
      if d ≠ .missing ∧ d ≠ .path ∧ id ≠ 0 then .error .format
      else
        match c.check (tablespaceEntries out n dest id tsName) with
        | .error e => .error e
        | .ok () => if d = .missing then .error .fileMissing else .ok (tablespaceEntries out n dest id tsName)

/-- Another link, up to what it leads to (build.c.inc 361-365, 453-492). -/
def plainLink (c : Cfg) (parent : Str) (out : List Entry) (n dest : Str) (d : Dest) : Res (List Entry) :=
  let out := out ++ [.target (parent ++ 47 :: n) 0 [], .link (parent ++ 47 :: n) dest]
  match c.check out with
  | .error e => .error e
  | .ok () => if d = .missing then .error .fileMissing else .ok out

/-- `manifestBuildInfo` for the entries of a directory (build.c.inc 98-508). `only` is set for the destination of a tablespace: one entry
is looked at there, and it is found by following links (455-457). -/
def build (c : Cfg) : DTree → (parent : Str) → (db : Bool) → (only : Option Str) → List Entry → Res (List Entry)
  | .nil, _, _, _, out => .ok out
  | .file n s rest, parent, db, only, out =>
    if only.any (· != n) then build c rest parent db only out
    else
      match addFile c parent db n s out with
      | .error e => .error e
      | .ok out => build c rest parent db only out
  | .special _ rest, parent, db, only, out => build c rest parent db only out
  | .path n ch rest, parent, db, only, out =>
    if only.any (· != n) || skipAny c parent n then build c rest parent db only out
    else if parent == tblspcDirZ then .error .linkDestination
    else if skipContent c parent n then build c rest parent db only (out ++ [.path (parent ++ 47 :: n)])
    else
      match build c ch (parent ++ 47 :: n) (dbPath c.ts (parent ++ 47 :: n)) none (out ++ [.path (parent ++ 47 :: n)]) with
      | .error e => .error e
      | .ok out => build c rest parent db only out
  | .link n dest twice d ch rest, parent, db, only, out =>
    if only.any (· != n) || skipAny c parent n then build c rest parent db only out
    else if only.isNone && twice then .error .linkDestination
    else if only.isNone && parent == tblspcDirZ then
      match tablespace c out n dest (if d = .path then lookup c.ts ch else .missing) with
      | .error e => .error e
      | .ok out =>
        match build c ch (pgTblspcZ ++ 47 :: n) db (some c.ts) out with
        | .error e => .error e
        | .ok out => build c rest parent db only out
    else
      match (if only.isNone then plainLink c parent out n dest d else .ok out) with
      | .error e => .error e
      | .ok out =>
        match d with
        | .missing => build c rest parent db only out
        | .special => build c rest parent db only out
        | .file s =>
          match addFile c parent db n s out with
          | .error e => .error e
          | .ok out => build c rest parent db only out
        | .path =>
          if skipContent c parent n then build c rest parent db only (out ++ [.path (parent ++ 47 :: n)])
          else
            match build c ch (parent ++ 47 :: n) (dbPath c.ts (parent ++ 47 :: n)) none (out ++ [.path (parent ++ 47 :: n)]) with
            | .error e => .error e
            | .ok out => build c rest parent db only out

/-- `manifestNewBuild` up to the removal of unlogged relations (manifest.c 172-227). The lists are sorted there; here only what is in them
is of interest. -/
def newBuild (c : Cfg) (t : DTree) : Res (List Entry) :=
  build c t pgdataZ false none [.path pgdataZ, .target pgdataZ 0 []]

end Verif.Manifest.Build
