import Verif.Archive.FindModel

/-! # Model of pushing a file to the archive of each repository

src/command/archive/push/file.c. A repository is the files of the archive id in it, by name (the directory is a function of the
name). A file is visible only when it has been closed and then has all the data, as for the posix driver with atomic writes.
What fails and where is given by `Env`. -/

namespace Verif.Archive

abbrev Bytes := List UInt8

/-- `ArchivePushFileRepoData`, src/command/archive/push/file.h: a repository, with its encryption. -/
structure Repo where
  files : List (Str × Bytes)
  enc : Bytes → Bytes

/-- What fails for a repository: list the files, open, write of a buffer, close. -/
structure Env where
  find : Option Err := none
  opn : Option Err := none
  write : Nat → Option Err := fun _ => none
  close : Option Err := none

/-- Files in a directory: the directory of a file is the first 16 characters of the name when it starts with the name of a segment
(src/storage/helper.c:297-348). -/
def listing (files : List (Str × Bytes)) (dir : Str) : List Str :=
  (files.map Prod.fst).filter fun name =>
    (name.take 24).length == 24 && (name.take 24).all Wal.rangeChar && name.take 16 == dir

/-- Write a file, in place of one with the same name (rename in src/storage/posix/write.c). -/
def putFile (name : Str) (data : Bytes) : List (Str × Bytes) → List (Str × Bytes)
  | [] => [(name, data)]
  | (n, d) :: files => if n = name then (n, data) :: files else (n, d) :: putFile name data files

/-- Call of `walSegmentFindOne`, line 181, without a timeout so with one pass. -/
def findIn (repo : Repo) (env : Env) (file : Str) : Res (Option Str) :=
  match env.find with
  | some e => .error e
  | none => findOne 0 file [listing repo.files]

/-- What is known after the check: which repositories get a copy, repositories to warn about, errors. -/
structure Check where
  copy : List Bool
  copyAny : Bool
  warn : List Nat
  errors : List (Nat × Err)

/-- The loop over the repositories, lines 171-229. -/
def checkLoop (modeCheck : Bool) (file sha : Str) : Nat → List (Repo × Env) → Check → Res Check
  | _, [], c => .ok c
  | idx, (repo, env) :: repos, c =>
    match findIn repo env file with
    | .error e =>
      checkLoop modeCheck file sha (idx + 1) repos { c with
        copy := c.copy ++ [false]
        errors := c.errors ++ [(idx, e)] }
    | .ok (some found) =>
      if (found.drop (file.length + 1)).take 40 = sha then
        checkLoop modeCheck file sha (idx + 1) repos { c with
          copy := c.copy ++ [false]
          warn := if modeCheck then c.warn ++ [idx] else c.warn }
      else .error .archiveDuplicate
    | .ok none =>
      checkLoop modeCheck file sha (idx + 1) repos { c with
        copy := c.copy ++ [true]
        copyAny := true }

/-- A file that is being written: not in the repository before it is closed. -/
structure Dest where
  copy : Bool
  data : Bytes

/-- One operation on each destination, lines 281-291, 301-311 and 321-330 with `archivePushFileIo`, lines 47-93. -/
def ioLoop (fails : Env → Option Err) (chunk : Bytes) : Nat → List (Dest × Env) → List (Nat × Err) → List Dest × List (Nat × Err)
  | _, [], errors => ([], errors)
  | idx, (d, env) :: ds, errors =>
    if d.copy then
      match fails env with
      | some e =>
        let (ds, errors) := ioLoop fails chunk (idx + 1) ds (errors ++ [(idx, e)])
        (⟨false, d.data⟩ :: ds, errors)
      | none =>
        let (ds, errors) := ioLoop fails chunk (idx + 1) ds errors
        (⟨true, d.data ++ chunk⟩ :: ds, errors)
    else
      let (ds, errors) := ioLoop fails chunk (idx + 1) ds errors
      (d :: ds, errors)

/-- Copy data from source to destination, lines 293-316. -/
def writeLoop (envs : List Env) : Nat → List Bytes → List Dest → List (Nat × Err) → List Dest × List (Nat × Err)
  | _, [], ds, errors => (ds, errors)
  | n, chunk :: chunks, ds, errors =>
    let (ds, errors) := ioLoop (fun env => env.write n) chunk 0 (ds.zip envs) errors
    writeLoop envs (n + 1) chunks ds errors

/-- The source file: header of the WAL (system id and version), what is read for the checksum, what is read for the copy after
compression by buffer (or an error, before the end so nothing is closed). -/
structure Source where
  header : Res (Nat × Nat)
  content : Res Bytes
  chunks : Res (List Bytes)

/-- Put the files that are closed in the repositories. -/
def publish (name : Str) : List (Repo × Dest) → List Repo
  | [] => []
  | (repo, d) :: rest => (if d.copy then { repo with files := putFile name (repo.enc d.data) repo.files } else repo) :: publish name rest

/-- Copy the file, lines 235-336. -/
def copyPhase (src : Source) (name : Str) (repos : List (Repo × Env)) (c : Check) : List Repo × Res (List Nat) :=
  let envs := repos.map Prod.snd
  if c.copyAny then
    match src.chunks with
    | .error e => (repos.map Prod.fst, .error e)
    | .ok chunks =>
      let ds := c.copy.map fun copy => (⟨copy, []⟩ : Dest)
      let (ds, errors) := ioLoop (·.opn) [] 0 (ds.zip envs) c.errors
      let (ds, errors) := writeLoop envs 0 chunks ds errors
      let (ds, errors) := ioLoop (·.close) [] 0 (ds.zip envs) errors
      (publish name ((repos.map Prod.fst).zip ds), if errors ≠ [] then .error .command else .ok c.warn)
  else (repos.map Prod.fst, if c.errors ≠ [] then .error .command else .ok c.warn)

/-- Options of a push: check of the header and the expected header, warning for files that exist, extension of the compression. -/
structure PushOpts where
  headerCheck : Bool
  header : Nat × Nat
  modeCheck : Bool
  ext : Str

/-- Check of the header, lines 132-145. -/
def headerOk (o : PushOpts) (src : Source) : Res Unit :=
  if o.headerCheck then
    match src.header with
    | .error e => .error e
    | .ok h => if h = o.header then .ok () else .error .archiveMismatch
  else .ok ()

/-- Lines 129-233: the name in the archive and the check. -/
def checkPhase (sha : Bytes → Str) (o : PushOpts) (src : Source) (file : Str) (repos : List (Repo × Env)) (prior : List (Nat × Err)) :
    Res (Str × Check) :=
  if Wal.isSegment file then
    match headerOk o src with
    | .error e => .error e
    | .ok () =>
      match src.content with
      | .error e => .error e
      | .ok content =>
        match checkLoop o.modeCheck file (sha content) 0 repos ⟨[], false, [], prior⟩ with
        | .error e => .error e
        | .ok c => .ok (file ++ [0x2d] ++ sha content ++ o.ext, c)
  else .ok (file, ⟨repos.map fun _ => true, true, [], prior⟩)

/-- `archivePushFile`, lines 96-341: repositories after and warnings or error. -/
def pushFile (sha : Bytes → Str) (o : PushOpts) (src : Source) (file : Str) (repos : List (Repo × Env)) (prior : List (Nat × Err)) :
    List Repo × Res (List Nat) :=
  match checkPhase sha o src file repos prior with
  | .error e => (repos.map Prod.fst, .error e)
  | .ok (name, c) => copyPhase src name repos c

end Verif.Archive
