import Verif.Manifest.LinkModel

/-! # Model of the clean phase of restore (src/command/restore/clean.c.inc 122-562)

The file system is one tree from the root. Targets are given by the names of their directories, without links on the way, and the data
directory is one of them. Owners and modes are only tested where the test can fail: `access` says whether a directory can be used. Steps 3 and
4 (564-634), which create missing paths and links, are not part of this model. System calls are assumed to succeed. -/

namespace Verif.Restore.Clean

open Verif Manifest

/-- The entries of a directory with their names. -/
inductive Tree where
  | nil
  | file (name : Str) (data : Str) (rest : Tree)
  | link (name : Str) (dest : Str) (rest : Tree)
  | special (name : Str) (rest : Tree)
  | path (name : Str) (children : Tree) (rest : Tree)
  deriving DecidableEq

/-- What is found with a name (`StorageType`). -/
inductive Kind where
  | file (data : Str)
  | link (dest : Str)
  | special
  | path
  deriving DecidableEq

/-- `storageInfo` without following links. -/
def find : Tree → List Str → Option Kind
  | _, [] => some .path
  | .nil, _ :: _ => none
  | .file n d rest, c :: r => if n = c then (if r = [] then some (.file d) else none) else find rest (c :: r)
  | .link n d rest, c :: r => if n = c then (if r = [] then some (.link d) else none) else find rest (c :: r)
  | .special n rest, c :: r => if n = c then (if r = [] then some .special else none) else find rest (c :: r)
  | .path n ch rest, c :: r => if n = c then find ch r else find rest (c :: r)

/-- The entries of a directory (`storageNewItr`), as a tree. -/
def sub : Tree → List Str → Option Tree
  | t, [] => some t
  | .nil, _ :: _ => none
  | .file n _ rest, c :: r => if n = c then none else sub rest (c :: r)
  | .link n _ rest, c :: r => if n = c then none else sub rest (c :: r)
  | .special n rest, c :: r => if n = c then none else sub rest (c :: r)
  | .path n ch rest, c :: r => if n = c then sub ch r else sub rest (c :: r)

/-- Replace the entries of a directory, if it is there. -/
def putAt (new : Tree) : Tree → List Str → Tree
  | _, [] => new
  | .nil, _ :: _ => .nil
  | .file n d rest, c :: r => if n = c then .file n d rest else .file n d (putAt new rest (c :: r))
  | .link n d rest, c :: r => if n = c then .link n d rest else .link n d (putAt new rest (c :: r))
  | .special n rest, c :: r => if n = c then .special n rest else .special n (putAt new rest (c :: r))
  | .path n ch rest, c :: r => if n = c then .path n (putAt new ch r) rest else .path n ch (putAt new rest (c :: r))

/-- `unlink` of the entry with this name. -/
def unlink (name : Str) : Tree → Tree
  | .nil => .nil
  | .file n d rest => if n = name then rest else .file n d (unlink name rest)
  | .link n d rest => if n = name then rest else .link n d (unlink name rest)
  | .special n rest => if n = name then rest else .special n (unlink name rest)
  | .path n ch rest => .path n ch (unlink name rest)

/-- Directories one in the other. -/
def mkNew : List Str → Tree
  | [] => .nil
  | c :: r => .path c (mkNew r) .nil

/-- `storagePathCreate` with its parents. It fails where a name is used for something else. -/
def mkPath : List Str → Tree → Option Tree
  | [], t => some t
  | c :: r, .nil => some (mkNew (c :: r))
  | c :: r, .file n d rest => if n = c then none else (mkPath (c :: r) rest).map (.file n d)
  | c :: r, .link n d rest => if n = c then none else (mkPath (c :: r) rest).map (.link n d)
  | c :: r, .special n rest => if n = c then none else (mkPath (c :: r) rest).map (.special n)
  | c :: r, .path n ch rest =>
    if n = c then (mkPath r ch).map fun ch => .path n ch rest else (mkPath (c :: r) rest).map (.path n ch)

/-- What is used of the manifest: the names of files and paths, and the links with their destinations. -/
structure Listing where
  files : List Str
  links : List (Str × Str)
  paths : List Str

/-- A target (clean.c.inc 124-136): `name` and `path` are `targetName` and `targetPath`, which have the identifier of the tablespace appended for
a tablespace (417-425), `linkName` is the name of the target itself, and `file` is set for a link to a file. -/
structure Tgt where
  name : Str
  linkName : Str
  path : List Str
  file : Option Str
  deriving DecidableEq

def Tgt.base (t : Tgt) : Bool := t.name == pgdataZ

/-- `restoreCleanBuildRecurse` (clean.c.inc 222-356): the entries that are left. -/
def cleanRec (m : Listing) (ignore : List Str) (delta : Bool) (name : Str) (base : Bool) : Tree → Res Tree
  | .nil => .ok .nil
  | .file n d rest =>
    if base && ignore.contains n then (cleanRec m ignore delta name base rest).map (.file n d)
    else if !delta then .error .pathNotEmpty
    else if m.files.contains (name ++ 47 :: n) && (m.links.lookup (name ++ 47 :: n)).isNone then
      (cleanRec m ignore delta name base rest).map (.file n d)
    else cleanRec m ignore delta name base rest
  | .link n d rest =>
    if !delta then .error .pathNotEmpty
    else if m.links.lookup (name ++ 47 :: n) = some d then (cleanRec m ignore delta name base rest).map (.link n d)
    else cleanRec m ignore delta name base rest
  | .special n rest =>
    if !delta then .error .pathNotEmpty
    else cleanRec m ignore delta name base rest
  | .path n ch rest =>
    if !delta then .error .pathNotEmpty
    else if m.paths.contains (name ++ 47 :: n) && (m.links.lookup (name ++ 47 :: n)).isNone then
      match cleanRec m ignore delta (name ++ 47 :: n) false ch with
      | .error e => .error e
      | .ok ch => (cleanRec m ignore delta name base rest).map (.path n ch)
    else cleanRec m ignore delta name base rest

/-- `backup.manifest`, `postgresql.auto.conf`, `recovery.signal`, `standby.signal`, `recovery.conf`, `tablespace_map`, `global`, `pg_control` -/
def manifestFileZ : Str := [98, 97, 99, 107, 117, 112, 46, 109, 97, 110, 105, 102, 101, 115, 116]
def autoConfZ : Str := [112, 111, 115, 116, 103, 114, 101, 115, 113, 108, 46, 97, 117, 116, 111, 46, 99, 111, 110, 102]
def recSignalZ : Str := [114, 101, 99, 111, 118, 101, 114, 121, 46, 115, 105, 103, 110, 97, 108]
def stbSignalZ : Str := [115, 116, 97, 110, 100, 98, 121, 46, 115, 105, 103, 110, 97, 108]
def recConfZ : Str := [114, 101, 99, 111, 118, 101, 114, 121, 46, 99, 111, 110, 102]
def tsMapZ : Str := [116, 97, 98, 108, 101, 115, 112, 97, 99, 101, 95, 109, 97, 112]
def globalNameZ : Str := [103, 108, 111, 98, 97, 108]
def controlZ : Str := [112, 103, 95, 99, 111, 110, 116, 114, 111, 108]

/-- Options: `delta` is set with either `--delta` or `--force` (clean.c.inc 372), `preserve` with `--type=preserve`, and `guc` for versions of
PostgreSQL with recovery settings in its configuration. -/
structure Opts where
  delta : Bool
  preserve : Bool
  guc : Bool

/-- The files that are ignored (clean.c.inc 399-415). -/
def ignoreOf (o : Opts) : List Str :=
  manifestFileZ :: (if o.preserve then (if o.guc then [autoConfZ, recSignalZ, stbSignalZ] else [recConfZ]) else [])

/-- Step 1 for a target (clean.c.inc 381-482): whether it exists. -/
def step1 (o : Opts) (m : Listing) (access : List Str → Bool) (root : Tree) (t : Tgt) : Res Bool :=
  match sub root t.path with
  | none => if (find root t.path).isSome then .error .pathOpen else .ok false
  | some ch =>
    if !access t.path then .error .pathOpen
    else if o.delta then .ok true
    else
      match t.file with
      | none => (cleanRec m (ignoreOf o) false t.name t.base ch).map fun _ => true
      | some f =>
        match find ch [f] with
        | some (.file _) => .error .fileExists
        | _ => .ok true

def step1All (o : Opts) (m : Listing) (access : List Str → Bool) (root : Tree) : List Tgt → Res (List (Tgt × Bool))
  | [] => .ok []
  | t :: ts =>
    match step1 o m access root t with
    | .error e => .error e
    | .ok b => (step1All o m access root ts).map ((t, b) :: ·)

/-- The files that are skipped (clean.c.inc 484-499). -/
def skipFiles (o : Opts) (m : Listing) : Listing :=
  { m with files := m.files.filter fun f =>
      !(f == pgdataZ ++ 47 :: tsMapZ) && !(o.guc && o.preserve && f == pgdataZ ++ 47 :: autoConfZ) }

/-- Where a link in the directory `dir` goes. -/
def linkNames (dir : List Str) (d : Str) : List Str :=
  match pathAbsolute d (dir.flatMap (47 :: ·)) with
  | .ok p => (Wal.split 47 p).filter (· ≠ [])
  | .error _ => []

/-- The directory `global` of the data directory, which may be a link. -/
def globalDir (root : Tree) (pg : List Str) : List Str :=
  match find root (pg ++ [globalNameZ]) with
  | some (.link d) => linkNames pg d
  | _ => pg ++ [globalNameZ]

/-- `storageExists` of `pg_control`, which may be a link to a file. -/
def controlExists (root : Tree) (pg : List Str) : Bool :=
  match find root (globalDir root pg ++ [controlZ]) with
  | some (.file _) => true
  | some (.link d) =>
    match find root (linkNames (globalDir root pg) d) with
    | some (.file _) => true
    | _ => false
  | _ => false

/-- The removal of `pg_control` (clean.c.inc 503-511). -/
def removeControl (root : Tree) (pg : List Str) : Tree :=
  if controlExists root pg then
    match sub root (globalDir root pg) with
    | none => root
    | some ch => putAt (unlink controlZ ch) root (globalDir root pg)
  else root

/-- Step 2 for a target (clean.c.inc 513-562). A directory that is there no more is an error when it is read. -/
def step2 (o : Opts) (m : Listing) (root : Tree) (t : Tgt) (there : Bool) : Res Tree :=
  if there then
    match t.file with
    | some _ => .ok root
    | none =>
      if !m.paths.contains t.name then .error .assert
      else
        match sub root t.path with
        | none => .error .pathMissing
        | some ch => (cleanRec m (ignoreOf o) true t.name t.base ch).map fun new => putAt new root t.path
  else
    match t.file with
    | some _ => if !m.paths.contains pgdataZ then .error .assert else
      match mkPath t.path root with
      | none => .error .pathCreate
      | some r => .ok r
    | none => if !m.paths.contains t.linkName then .error .assert else
      match mkPath t.path root with
      | none => .error .pathCreate
      | some r => .ok r

/-- Step 2 for each target: the file system and the error that ends it, if any. -/
def step2All (o : Opts) (m : Listing) (root : Tree) : List (Tgt × Bool) → Tree × Option Err
  | [] => (root, none)
  | (t, b) :: ts =>
    match step2 o m root t b with
    | .error e => (root, some e)
    | .ok root => step2All o m root ts

/-- `restoreCleanBuild` to the end of step 2 (clean.c.inc 358-562). -/
def cleanBuild (o : Opts) (m : Listing) (access : List Str → Bool) (pg : List Str) (ts : List Tgt) (root : Tree) : Tree × Option Err :=
  match step1All o m access root ts with
  | .error e => (root, some e)
  | .ok l => step2All o (skipFiles o m) (removeControl root pg) l

end Verif.Restore.Clean
