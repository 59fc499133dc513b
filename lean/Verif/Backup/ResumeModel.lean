import Verif.Basic
import Verif.Common.Str

/-!
# Resuming a backup

Model of `backupResumeClean`, `backupResumeFind` and `backupResume` (src/command/backup/resume.c.inc) with the helpers for compression
extensions (src/common/compress/helper.c).

A directory of the repository is a `Tree`, the list of its entries. Manifests are found by name: the list of paths, and a function for
files. Loading the manifest of the backup to resume is a parameter.
-/

namespace Verif.Backup.Resume

/-- The entries of a directory with their names. Files, links and special files have no content here. -/
inductive Tree where
  | nil
  | file (name : Str) (rest : Tree)
  | link (name : Str) (rest : Tree)
  | special (name : Str) (rest : Tree)
  | path (name : Str) (children : Tree) (rest : Tree)
  deriving DecidableEq, Repr

/-- The fields of `ManifestFile` (src/info/manifest/manifest.h) that resume reads or writes. `data` stands for the fields that are copied
together (`sizeRepo`, the checksum of the repository file, sizes of block incremental and the page checksum result). -/
structure File where
  size : Nat
  timestamp : Int
  checksum : Option Str
  data : Nat
  resume : Bool
  delta : Bool
  deriving DecidableEq, Repr

/-- A manifest as it is searched here. -/
structure Manifest where
  paths : List Str
  files : Str → Option File

/-- `CompressType` (src/common/compress/helper.h). -/
inductive Compress where
  | none | bz2 | gz | lz4 | zst | xz
  deriving DecidableEq, Repr

/-- `compressExtStr` (helper.c 40-101, 255-264). -/
def ext : Compress → Str
  | .none => []
  | .bz2 => [46, 98, 122, 50]
  | .gz => [46, 103, 122]
  | .lz4 => [46, 108, 122, 52]
  | .zst => [46, 122, 115, 116]
  | .xz => [46, 120, 122]

/-- `strEndsWith`. -/
def endsWith (s e : Str) : Bool := decide (e.length ≤ s.length) && s.drop (s.length - e.length) == e

/-- `compressTypeFromName` (helper.c 158-176). -/
def fromName (name : Str) : Compress :=
  match [Compress.bz2, .gz, .lz4, .zst, .xz].find? (fun t => endsWith name (ext t)) with
  | some t => t
  | none => .none

/-- `strSubN(s, 0, strSize(s) - size)`, as in `compressExtStrip` (helper.c 284-297). -/
def cut (s e : Str) : Str := s.take (s.length - e.length)

/-- `BACKUP_BLOCK_INCR_EXT`: `.pgbi`. -/
def blockExt : Str := [46, 112, 103, 98, 105]

/-- `backup.manifest.copy`. -/
def manifestCopy : Str :=
  [98, 97, 99, 107, 117, 112, 46, 109, 97, 110, 105, 102, 101, 115, 116, 46, 99, 111, 112, 121]

/-- The manifest name of an entry (resume.c.inc 37-38). -/
def entryName (parent : Option Str) (name : Str) : Str :=
  match parent with
  | some p => p ++ 47 :: name
  | none => name

/-- The name that is looked up for a file of the repository, and whether it is block incremental (resume.c.inc 72-81). -/
def lookup (name : Str) : Str × Bool :=
  let t := fromName name
  let n := if t ≠ .none then cut name (ext t) else name
  if endsWith n blockExt then (cut n blockExt, true) else (n, false)

/-- The file as it is resumed (resume.c.inc 117-127). -/
def merge (delta : Bool) (file fileResume : File) : File :=
  { file with
    checksum := fileResume.checksum
    data := fileResume.data
    resume := true
    delta := delta }

/-- What happens to a file (resume.c.inc 72-132): the manifest when it is resumed, nothing when it must be removed. -/
def resumeFile (m mr : Manifest) (compress : Compress) (delta : Bool) (name : Str) : Option Manifest :=
  let (n, blockIncr) := lookup name
  if fromName name ≠ compress ∧ blockIncr = false then none
  else
    match m.files n with
    | none => none
    | some file =>
      match mr.files n with
      | none => none
      | some fileResume =>
        if fileResume.checksum = none then none
        else if file.size ≠ fileResume.size then none
        else if delta = false ∧ file.timestamp ≠ fileResume.timestamp then none
        else if file.size = 0 then none
        else some { m with files := fun k => if k = n then some (merge delta file fileResume) else m.files k }

/-- `backupResumeClean` (resume.c.inc 6-168): the directory that is left and the manifest. -/
def clean (mr : Manifest) (compress : Compress) (delta : Bool) : Option Str → Manifest → Tree → Tree × Manifest
  | _, m, .nil => (.nil, m)
  | parent, m, .file name rest =>
    if parent = none ∧ name = manifestCopy then
      let r := clean mr compress delta parent m rest
      (.file name r.1, r.2)
    else
      match resumeFile m mr compress delta (entryName parent name) with
      | some m' =>
        let r := clean mr compress delta parent m' rest
        (.file name r.1, r.2)
      | none => clean mr compress delta parent m rest
  | parent, m, .link name rest =>
    if parent = none ∧ name = manifestCopy then
      let r := clean mr compress delta parent m rest
      (.link name r.1, r.2)
    else clean mr compress delta parent m rest
  | parent, m, .special name rest =>
    if parent = none ∧ name = manifestCopy then
      let r := clean mr compress delta parent m rest
      (.special name r.1, r.2)
    else clean mr compress delta parent m rest
  | parent, m, .path name children rest =>
    if parent = none ∧ name = manifestCopy then
      let r := clean mr compress delta parent m rest
      (.path name children r.1, r.2)
    else if m.paths.contains (entryName parent name) then
      let r1 := clean mr compress delta (some (entryName parent name)) m children
      let r2 := clean mr compress delta parent r1.2 rest
      (.path name r1.1 r2.1, r2.2)
    else clean mr compress delta parent m rest

/-! ## Finding a backup to resume -/

/-- `backupType`. -/
inductive Kind where
  | full | diff | incr
  deriving DecidableEq, Repr

/-- What must be equal for a resume (resume.c.inc 235-269). -/
structure Data where
  version : Str
  kind : Kind
  labelPrior : Option Str
  compress : Compress
  deriving DecidableEq, Repr

/-- A backup directory: its label, whether it has `backup.manifest`, and whether it has `backup.manifest.copy`, with the manifest that is
loaded, nothing when that is an error. -/
structure Dir where
  label : Str
  manifest : Bool
  copy : Bool
  loaded : Option Data
  deriving DecidableEq, Repr

/-- The options that decide (resume.c.inc 200, 205). -/
structure Opt where
  resume : Bool
  kind : Kind
  compress : Compress
  deriving DecidableEq, Repr

/-- Whether a backup can be resumed (resume.c.inc 200-273). `version` and `prior` are of the new manifest. -/
def usable (o : Opt) (version : Str) (prior : Option Str) (d : Dir) : Bool :=
  decide (o.kind = .full) && d.copy && (o.resume && decide (o.kind = .full)) &&
    match d.loaded with
    | none => false
    | some r => decide (r.version = version) && decide (r.kind = o.kind) && decide (r.labelPrior = prior) && decide (r.compress = o.compress)

/-- `backupResumeFind` (resume.c.inc 171-295): the backup that is resumed and the directories that are left. `dirs` are the directories
whose name is a backup label, sorted from the last to the first. -/
def find (o : Opt) (version : Str) (prior : Option Str) : List Dir → Option Dir × List Dir
  | [] => (none, [])
  | d :: rest =>
    if d.manifest then (none, d :: rest)
    else if usable o version prior d then (some d, d :: rest)
    else (none, rest)

end Verif.Backup.Resume
