import Verif.Storage.MultiModel

/-! # Model of the copy of files to the repository (src/command/backup/file.c.inc 18-561)

The data directory may change at any time: what the first loop (checksum of existing files) and the second loop (copy) read of a file are two
arguments that have nothing to do with each other. Checksum, compression and encryption, the block incremental filter and the reading of
`pg_control` are parameters. Checksums of pages are in `Verif.Backup.Page`. What the multiple read of the maps delivers is the concatenation of
the parts that were added to it, which is what is proved of it in `Verif.Storage` (c60_data). -/

namespace Verif.Backup.File

open Verif

/-- Where the prior map is (32-34): file, offset and size. -/
structure Prior where
  file : Str
  offset : Nat
  size : Nat
  deriving DecidableEq

/-- `BackupFile` (18-40) without the options for page checksums. `control` is set for `pg_control` (339) and `block` when the block size is not
zero. The checksum is only used for files that are checked, resumed or in a prior backup, for which there is one (191). -/
structure BFile where
  name : Str
  control : Bool
  delta : Bool
  ignoreMissing : Bool
  size : Nat
  sizeOriginal : Nat
  exact : Bool
  checksum : Str
  block : Bool
  prior : Option Prior
  repoChecksum : Option Str
  repoSize : Nat
  resume : Bool
  hasReference : Bool
  deriving DecidableEq

/-- `BackupCopyResult` (src/command/backup/protocol.h 13-20). -/
inductive Result where
  | copy
  | checksum
  | skip
  | noOp
  | truncate
  deriving DecidableEq, Repr

/-- `BackupFileResult` (42-54). A checksum that is not set is `none`. -/
structure Report where
  result : Result
  repoInvalid : Bool
  copySize : Nat
  copyChecksum : Option Str
  repoChecksum : Option Str
  bundleOffset : Nat
  repoSize : Nat
  mapSize : Nat
  deriving DecidableEq

/-- What is known of a file that is to be copied (193-194). -/
def Report.new : Report := ⟨.copy, false, 0, none, none, 0, 0, 0⟩

/-- The parameters and what is not modelled. `pg1` and `pg2` are the files as they are read by the first and the second loop. `filters` is set
when there is compression or encryption, which `encode` is then. `block` is the block incremental filter for a file, with the offset in the
repository file and the prior map: what is stored and the size of the map in it. `known` is set when the end of the file is known although the
first buffer is full. `maps` are the files with the prior maps and `repo` is the repository file at first. -/
structure Env where
  sha : Str → Str
  pg1 : Str → Option Str
  pg2 : Str → Option Str
  control : Res Str
  filters : Bool
  encode : BFile → Str → Str
  block : BFile → Nat → Option Str → Str → Res (Str × Nat)
  bundleId : Nat
  bufferSize : Nat
  known : BFile → Bool
  maps : Str → Option Str
  queueMax : Nat
  readOver : Nat
  repo : Option Str

/-- The bytes that are read of a file (208, 346). -/
def limited (f : BFile) (b : Str) : Str := if f.exact then b.take f.sizeOriginal else b

/-- The file is compared with the checksum of the manifest (199-240): the result and whether it is equal. -/
def checkPg (env : Env) (f : BFile) : Res (Report × Bool) :=
  if f.delta then
    match env.pg1 f.name with
    | none => if f.ignoreMissing then .ok ({ Report.new with result := .skip }, false) else .error .fileMissing
    | some b =>
      if f.size = (limited f b).length ∧ f.checksum = env.sha (limited f b) then
        if f.hasReference then .ok ({ Report.new with result := .noOp, copySize := f.size, copyChecksum := some f.checksum }, true)
        else .ok (.new, true)
      else .ok (.new, false)
  else .ok (.new, false)

/-- The repository file is compared with the checksum of the manifest when it is resumed (242-287): the result and what is left of the repository
file. -/
def checkRepo (env : Env) (repo : Option Str) (f : BFile) (r : Report) (equal : Bool) : Res (Report × Option Str) :=
  if f.resume then
    if r.result = .skip then .ok (r, none)
    else if f.delta = false ∨ equal = true then
      match repo with
      | none => .error .fileMissing
      | some b =>
        if f.repoSize = b.length ∧ f.repoChecksum.getD f.checksum = env.sha b then
          .ok ({ r with result := .checksum, copySize := f.size, copyChecksum := some f.checksum }, repo)
        else .ok ({ r with repoInvalid := true }, repo)
    else .ok (r, repo)
  else .ok (r, repo)

/-- The first loop for one file (186-287). -/
def check (env : Env) (repo : Option Str) (f : BFile) : Res (Report × Option Str) :=
  match checkPg env f with
  | .error e => .error e
  | .ok (r, equal) => checkRepo env repo f r equal

/-- The first loop (183-309). -/
def checkAll (env : Env) : Option Str → List BFile → Res (List (BFile × Report) × Option Str)
  | repo, [] => .ok ([], repo)
  | repo, f :: fs =>
    match check env repo f with
    | .error e => .error e
    | .ok (r, repo) =>
      match checkAll env repo fs with
      | .error e => .error e
      | .ok (ps, repo) => .ok ((f, r) :: ps, repo)

/-- The prior map that is read for a file, if any (289-291, 378, 82). -/
def mapOf (p : BFile × Report) : Option Prior := if p.2.result = .copy ∧ p.1.block = true then p.1.prior else none

/-- What is added to the multiple read (303-305). -/
def adds (ps : List (BFile × Report)) : List Storage.Add := (ps.filterMap mapOf).map fun m => ⟨m.file, m.offset, some m.size⟩

/-- All the bytes of the multiple read (319-320). A file that is missing is an error, here or when it is its turn. -/
def mapStream (env : Env) (ps : List (BFile × Report)) : Res Str :=
  match Storage.openAll env.maps env.queueMax env.readOver (adds ps) with
  | .error e => .error e
  | .ok _ =>
    if (ps.filterMap mapOf).any fun m => (env.maps m.file).isNone then .error .fileMissing
    else .ok ((ps.filterMap mapOf).flatMap fun m => Storage.part ((env.maps m.file).getD []) m.offset (some m.size))

/-- The prior map is read for the filter (88-123): the map and what remains of the bytes. -/
def readMap (s : Str) : Option Prior → Res (Option Str × Str)
  | none => .ok (none, s)
  | some m => if (s.take m.size).length ≠ m.size then .error .fileRead else .ok (some (s.take m.size), s.drop m.size)

/-- What the file has when it is copied (339-347). -/
def source (env : Env) (f : BFile) : Res (Option Str) :=
  if f.control then
    match env.control with
    | .error e => .error e
    | .ok b => .ok (some b)
  else
    match env.pg2 f.name with
    | none => if f.ignoreMissing then .ok none else .error .fileMissing
    | some b => .ok (some (limited f b))

/-- What is stored for these bytes and the size of the map (363-403). -/
def stored (env : Env) (f : BFile) (offset : Nat) (map : Option Str) (b : Str) : Res (Str × Nat) :=
  if f.block then env.block f offset map b else .ok (if env.filters then env.encode f b else b, 0)

/-- The end of the file is found with the first buffer (415-422). -/
def eofFirst (env : Env) (f : BFile) (out : Str) : Bool :=
  decide (out.length < env.bufferSize) || (decide (out.length = env.bufferSize) && env.known f)

/-- The report on bytes that were read (422-540) and what is written, if anything. -/
def report (env : Env) (f : BFile) (r : Report) (offset : Nat) (b out : Str) (mapSize : Nat) : Report × Option Str :=
  if eofFirst env f out = true ∧ env.bundleId ≠ 0 ∧ b = [] then
    ({ r with result := .truncate, copySize := b.length, copyChecksum := some (env.sha []) }, none)
  else if eofFirst env f out = true ∧ f.hasReference = true ∧ b.length = f.size ∧ f.checksum = env.sha b then
    ({ r with result := .noOp, copySize := b.length, copyChecksum := some f.checksum }, none)
  else
    ({ r with
        copySize := b.length
        copyChecksum := some (env.sha b)
        bundleOffset := offset
        repoSize := out.length
        mapSize := mapSize
        repoChecksum := if f.block = true ∨ env.filters = true then some (env.sha out) else none }, some out)

/-- One file of the second loop (336-549): the report, what is written and what remains of the maps. -/
def copyOne (env : Env) (offset : Nat) (maps : Str) (f : BFile) (r : Report) : Res (Report × Option Str × Str) :=
  match source env f with
  | .error e => .error e
  | .ok src =>
    match readMap maps (mapOf (f, r)) with
    | .error e => .error e
    | .ok (map, maps) =>
      match src with
      | none => .ok ({ r with result := .skip }, none, maps)
      | some b =>
        match stored env f offset map b with
        | .error e => .error e
        | .ok (out, mapSize) => .ok ((report env f r offset b out mapSize).1, (report env f r offset b out mapSize).2, maps)

/-- The second loop (322-552). `out` is what was written, if the repository file was opened. -/
def copyAll (env : Env) : Option Str → Str → List (BFile × Report) → Res (Option Str × List Report)
  | out, _, [] => .ok (out, [])
  | out, maps, (f, r) :: ps =>
    if r.result = .copy then
      match copyOne env (out.getD []).length maps f r with
      | .error e => .error e
      | .ok (r, w, maps) =>
        match copyAll env (match w with | none => out | some w => some (out.getD [] ++ w)) maps ps with
        | .error e => .error e
        | .ok (out, rs) => .ok (out, r :: rs)
    else
      match copyAll env out maps ps with
      | .error e => .error e
      | .ok (out, rs) => .ok (out, r :: rs)

/-- `backupFile` (149-561): the repository file and the reports. -/
def backupFile (env : Env) (fs : List BFile) : Res (Option Str × List Report) :=
  match checkAll env env.repo fs with
  | .error e => .error e
  | .ok (ps, repo) =>
    match mapStream env ps with
    | .error e => .error e
    | .ok maps =>
      match copyAll env none maps ps with
      | .error e => .error e
      | .ok (out, rs) => .ok (out.or repo, rs)

end Verif.Backup.File
