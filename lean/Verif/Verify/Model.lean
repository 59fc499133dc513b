import Verif.Wal.Model
import Verif.Common.Str

/-!
# The verify command

Model of `src/command/verify/verify.c` (line numbers without a file are of this file) and of `verifyFile`
(`src/command/verify/file.c`).

Simplifications:

* the repository does not change while it is verified, so a directory has the same listing and a file the same content
  whenever it is read;
* `jobErrorTotal` is the length of a list: each time the program increments it, the model adds what it is incremented for;
* files in the archive whose names do not match `WAL_SEGMENT_FILE_REGEXP` are not in the listing, and the checksum part of the
  names that do is hexadecimal text (decoding it is C02);
* log output and the rendered text are not modelled, the lists they are rendered from are;
* archive ids are compared as text (`archiveIdComparator` compares the number after the dash first; it is zero only for
  equal text among the names of one directory that have different numbers).
-/

namespace Verif.Verify

/-- `VerifyResult` (`src/command/verify/file.h` 17-24); `other` also stands for a job that ended with an error. -/
inductive Outcome where
  | ok | missing | checksum | size | other
  deriving DecidableEq, Repr

/-- `WAL_SEGMENT_NAME_SIZE` (`src/command/archive/common.h` 53), `strSubN(file, 0, WAL_SEGMENT_NAME_SIZE)` -/
def seg (file : Str) : Str := file.take 24

/-- `VerifyWalRange` (77-82). -/
structure WalRange where
  start : Str
  stop : Str
  invalid : List (Str × Outcome)
  deriving DecidableEq, Repr

/-- `VerifyArchiveResult` (67-74). `size` is `pgWalInfo.size`. -/
structure ArchRes where
  id : Str
  total : Nat
  valid : Nat
  size : Nat
  ranges : List WalRange
  deriving DecidableEq, Repr

/-- What is verified of one file in the repository, the parameters of a job: the path in the repository, the part of the file
(offset and size), whether it has to be decrypted and decompressed (`filter`), the checksum and the size. -/
structure Check where
  path : Str
  part : Option (Nat × Nat)
  filter : Bool
  sum : Str
  size : Nat
  deriving DecidableEq, Repr

/-- A job. The key (843, 1115) says in which result the outcome is counted and whether it is an archive or a backup file; the path
without `<REPO:ARCHIVE>` or `<REPO:BACKUP>` is the name the file has in the results (1740-1745). -/
inductive Job where
  | wal (id : Str) (c : Check)
  | bak (label : Str) (c : Check)
  deriving DecidableEq, Repr

def Job.check : Job → Check
  | .wal _ c => c
  | .bak _ c => c

/-- What `jobErrorTotal` is incremented for: a duplicate segment (571), archive ids that are not in the history (1256), no usable
manifest (481), a manifest without files (1148), a file that is not valid (1786, 1806, 1823). -/
inductive Cause where
  | dup (id seg : Str)
  | history
  | manifest (label : Str)
  | empty (label : Str)
  | file (j : Job) (o : Outcome)
  deriving DecidableEq, Repr

/-- `/` -/
def slash : UInt8 := 47

/-! ## Ranges of WAL -/

/-- Change the last element of a list. -/
def setLast {α : Type} (f : α → α) : List α → List α
  | [] => []
  | [x] => [f x]
  | x :: y :: l => x :: setLast f (y :: l)

/-- Is there a range that the segment continues (592-597)? `cur` says whether `walRange` is set; it is the last range then. -/
def followsLast (size : Nat) (cur : Bool) (ranges : List WalRange) (s : Str) : Res Bool :=
  match cur, ranges.getLast? with
  | true, some last => do
    let n ← Wal.next last.stop size
    pure (decide (n = s))
  | _, _ => .ok false

/-- The loop of `verifyCreateArchiveIdRange` (556-622). `fuel` is
the number of passes, at most the number of files. The result are the ranges, the files that are left in the list and the segments
that had duplicates. -/
def rangeLoop (size : Nat) : (fuel : Nat) → (files : List Str) → (cur : Bool) → List WalRange →
    Res (List WalRange × List Str × List Str)
  | 0, files, _, ranges => .ok (ranges, files, [])
  | _ + 1, [], _, ranges => .ok (ranges, [], [])
  | fuel + 1, f :: rest, cur, ranges =>
    -- lines 561-590
    if (rest.head?.map seg) = some (seg f) then do
      let (r, fs, dups) ← rangeLoop size fuel (rest.dropWhile (fun g => seg g = seg f)) cur ranges
      pure (r, fs, seg f :: dups)
    else do
      let isNext ← followsLast size cur ranges (seg f)
      -- lines 598-622
      let ranges' := if isNext then setLast (fun r => { r with stop := seg f }) ranges
        else ranges ++ [{ start := seg f, stop := seg f, invalid := [] }]
      let (r, fs, dups) ← rangeLoop size fuel rest true ranges'
      pure (r, f :: fs, dups)

/-- Is the first file on the timeline of the last range (543-553)? -/
def sameTimeline (ranges : List WalRange) (files : List Str) : Bool :=
  match ranges.getLast?, files with
  | some last, f :: _ => decide (last.stop.take 8 = (seg f).take 8)
  | _, _ => false

/-- `verifyCreateArchiveIdRange` (532-628). The list of files is not empty. -/
def createRange (size : Nat) (ranges : List WalRange) (files : List Str) : Res (List WalRange × List Str × List Str) :=
  rangeLoop size files.length files (sameTimeline ranges files) ranges

/-- `verifyAddInvalidWalFile` (1270-1304). -/
def addInvalid (name : Str) (o : Outcome) (segment : Str) : List WalRange → List WalRange
  | [] => []
  | r :: rest =>
    -- `strCmp(walRange->stop, walSegment) >= 0`
    if ¬ r.stop < segment then { r with invalid := r.invalid ++ [(name, o)] } :: rest
    else r :: addInvalid name o segment rest

/-! ## Backups -/

/-- `VerifyBackupResultStatus` (92-98). -/
inductive Status where
  | valid | invalid | missingManifest | inProgress
  deriving DecidableEq, Repr

/-- `VerifyBackupResult` (100-114), without the fields that are only recorded. -/
structure BackRes where
  label : Str
  status : Status
  complete : Bool
  totalManifest : Nat
  totalVerify : Nat
  totalValid : Nat
  invalid : List (Str × Outcome)
  deriving DecidableEq, Repr

/-- The fields of `ManifestFile` that are used (`src/info/manifest/manifest.h` 103-132). -/
structure VFile where
  name : Str
  size : Nat
  ref : Option Str
  bundleId : Nat
  bundleOffset : Nat
  sizeRepo : Nat
  blockIncr : Bool
  sum : Str
  repoSum : Option Str
  deriving DecidableEq, Repr

/-- A database in the history of an information file. -/
structure Pg where
  id : Nat
  systemId : Nat
  version : Nat
  deriving DecidableEq, Repr

/-- The parts of a manifest that are used. `ext` is the extension of the compress type. -/
structure VManifest where
  files : List VFile
  bundle : Bool
  ext : Str
  pg : Pg
  deriving DecidableEq, Repr

/-- `verifyInfoFile` (186-247): the content, or the error that was caught. -/
inductive Load (α : Type) where
  | ok (a : α)
  | missing
  | error
  deriving DecidableEq, Repr

/-- `verifyManifestFile` (367-487): the manifest, the status and whether `jobErrorTotal` is incremented. `cur` is `currentBackup`;
`main` and `copy` are the results for the manifest and its copy. -/
def manifestFile (main copy : Load VManifest) (cur : Bool) (hist : List Pg) : Option VManifest × Status × Bool :=
  -- lines 389-441
  let (m, st) : Option VManifest × Status :=
    match main with
    | .ok m => (some m, .valid)
    | _ =>
      if ¬ (cur = true ∧ main = .missing) then
        match copy with
        | .ok m => (some m, .valid)
        | _ => if main = .missing ∧ copy = .missing then (none, .missingManifest) else (none, .valid)
      else (none, .inProgress)
  -- lines 443-476
  let m := m.bind fun m => if hist.any (fun h => h = m.pg) then some m else none
  -- lines 478-483
  if m.isNone ∧ st = .valid then (none, .invalid, true) else (m, st, false)

/-- `bundle/`, `MANIFEST_PATH_BUNDLE` (`src/info/manifest/manifest.h` 38) -/
def bundlePath : Str := [98, 117, 110, 100, 108, 101, 47]

/-- `.pgbi`, `BACKUP_BLOCK_INCR_EXT` (`src/command/backup/common.h` 22) -/
def blockExt : Str := [46, 112, 103, 98, 105]

/-- `backupFileRepoPathP` (`src/command/backup/common.c` 19-46) without `<REPO:BACKUP>/`. -/
def repoPath (label : Str) (ext : Str) (f : VFile) : Str :=
  label ++ [slash] ++
    if f.bundleId ≠ 0 then bundlePath ++ Num.uintToZ f.bundleId
    else f.name ++ if f.blockIncr then blockExt else ext

/-- The parameters of the job for a file of a backup (1075-1110). -/
def fileCheck (label : Str) (ext : Str) (f : VFile) : Check :=
  { path := repoPath label ext f
    part := if f.bundleId ≠ 0 then some (f.bundleOffset, f.sizeRepo) else none
    filter := f.repoSum.isNone
    sum := f.repoSum.getD f.sum
    size := if f.repoSum.isSome then f.sizeRepo else f.size }

/-! ## State and jobs -/

/-- The repository and the options of the command. -/
structure Repo where
  /-- directories of an archive id, sorted -/
  paths : Str → List Str
  /-- files of a directory of an archive id, sorted -/
  files : Str → Str → List Str
  /-- the size in the header of a WAL file, or an error that ends the command -/
  walSize : Str → Str → Str → Res Nat
  /-- the range of `verifyBackupSet` (633-705): `none` without `--set`, `some none` if its manifest cannot be loaded or has no
  range -/
  range : Option (Option (Str × Str))
  manifest : Str → Load VManifest
  copy : Str → Load VManifest
  history : List Pg
  current : Option Str

/-- `VerifyJobData` (117-137). `todo` are the files of the manifest from `manifestFileIdx` on. -/
structure JobData where
  archiveIds : List Str
  walPaths : List Str
  walFiles : List Str
  backups : List Str
  manifest : Option VManifest
  todo : List VFile
  backupProcessing : Bool
  errs : List Cause
  archRes : List ArchRes
  backRes : List BackRes

/-- Filter the files by the range (766-793). -/
def filterFiles (range : Option (Option (Str × Str))) (files : List Str) : List Str :=
  match range with
  | none => files
  | some none => []
  | some (some (start, stop)) =>
    let files := files.dropWhile (fun f => seg f < start)
    (files.reverse.dropWhile (fun f => stop < seg f)).reverse

/-- The job for a WAL file (824-850). -/
def walJob (id path file : Str) (size : Nat) : Job :=
  .wal id
    { path := id ++ [slash] ++ path ++ [slash] ++ file
      part := none
      filter := true
      sum := (file.drop 25).take 40
      size := size }

/-- What the loop over the directories of an archive id works on. -/
structure ArchSt where
  walPaths : List Str
  walFiles : List Str
  res : ArchRes
  errs : List Cause

/-- The size of the segments, from the header of the first file that is found (797-805). -/
def walSizeOf (repo : Repo) (path : Str) (res : ArchRes) (f : Str) : Res Nat :=
  if res.size = 0 then repo.walSize res.id path f else .ok res.size

/-- Read the list of files of a directory and initialise the size and the ranges (753-815). -/
def readPath (repo : Repo) (path : Str) (res : ArchRes) (errs : List Cause) : Res (List Str × ArchRes × List Cause) :=
  match filterFiles repo.range (repo.files res.id path) with
  | [] => .ok ([], res, errs)
  | f :: rest => do
    let size ← walSizeOf repo path res f
    let (ranges, files, dups) ← createRange size res.ranges (f :: rest)
    pure (files, { res with size := size, total := res.total + (f :: rest).length, ranges := ranges },
      errs ++ dups.map (Cause.dup res.id))

/-- The files to verify next: those that are left, or those of the directory (750-815). -/
def nextFiles (repo : Repo) (path : Str) (files : List Str) (res : ArchRes) (errs : List Cause) :
    Res (List Str × ArchRes × List Cause) :=
  if files.isEmpty then readPath repo path res errs else .ok (files, res, errs)

/-- The loop over the directories of an archive id (748-872). -/
def pathsLoop (repo : Repo) : (paths : List Str) → (files : List Str) → ArchRes → List Cause → Res (Option Job × ArchSt)
  | [], files, res, errs => .ok (none, ⟨[], files, res, errs⟩)
  | p :: ps, files, res, errs => do
    let (files, res, errs) ← nextFiles repo p files res errs
    match files with
    | f :: fs =>
      pure (some (walJob res.id p f res.size), ⟨if fs.isEmpty then ps else p :: ps, fs, res, errs⟩)
    | [] => pathsLoop repo ps [] res errs

/-- The loop of `verifyArchive` (710-890) over the archive ids. -/
def idsLoop (repo : Repo) : (ids : List Str) → JobData → Res (Option Job × JobData)
  | [], jd => .ok (none, { jd with archiveIds := [] })
  | id :: ids, jd =>
    -- lines 713-743
    let isNew := (jd.archRes.getLast?.map (·.id)) ≠ some id
    let res : List ArchRes := if isNew then jd.archRes ++ [⟨id, 0, 0, 0, []⟩] else jd.archRes
    let walPaths := if isNew then repo.paths id else jd.walPaths
    if walPaths.isEmpty then idsLoop repo ids { jd with archRes := res, walPaths := walPaths }
    else
      match res.getLast? with
      | none => .error .ub
      | some last => do
        let (job, st) ← pathsLoop repo walPaths jd.walFiles last jd.errs
        let jd := { jd with
          walPaths := st.walPaths
          walFiles := st.walFiles
          archRes := setLast (fun _ => st.res) res
          errs := st.errs }
        match job with
        | some job => pure (some job, { jd with archiveIds := if st.walPaths.isEmpty then ids else id :: ids })
        | none => idsLoop repo ids jd

/-- `verifyArchive` (699-896). -/
def archive (repo : Repo) (jd : JobData) : Res (Option Job × JobData) := idsLoop repo jd.archiveIds jd

/-- `lstFindIdx` with the string comparator: the first element with this name. -/
def findRes (label : Str) (l : List BackRes) : Option BackRes := l.find? (fun r => r.label = label)

/-- One file of a manifest (1008-1119): the job, if any, and the result of the backup. -/
def fileStep (results : List BackRes) (m : VManifest) (f : VFile) (res : BackRes) : Option Job × BackRes :=
  let res := { res with totalVerify := res.totalVerify + 1 }
  if f.size ≠ 0 ∨ ¬ m.bundle then
    match f.ref with
    | some ref =>
      match findRes ref results with
      | none => (some (.bak res.label (fileCheck ref m.ext f)), res)
      | some prior =>
        if ¬ prior.complete then (some (.bak res.label (fileCheck ref m.ext f)), res)
        else
          match prior.invalid.find? (fun i => i.1 = ref ++ [slash] ++ f.name ++ m.ext) with
          | some i => (none, { res with invalid := res.invalid ++ [i], status := .invalid })
          | none => (none, { res with totalValid := res.totalValid + 1 })
    | none => (some (.bak res.label (fileCheck res.label m.ext f)), res)
  else (none, { res with totalValid := res.totalValid + 1 })

/-- The loop over the files of a manifest (1004-1140): the job, if any, the result of the backup and the files that are left. -/
def filesLoop (results : List BackRes) (m : VManifest) : List VFile → BackRes → Option Job × BackRes × List VFile
  | [], res => (none, res, [])
  | f :: rest, res =>
    match fileStep (results ++ [res]) m f res with
    | (some j, res) => (some j, res, rest)
    | (none, res) => filesLoop results m rest res

/-- The loop of `verifyBackup` (915-1165) over the backups. -/
def backupsLoop (repo : Repo) : (backups : List Str) → JobData → Option Job × JobData
  | [], jd => (none, { jd with backups := [] })
  | label :: rest, jd =>
    let isNew := (jd.backRes.getLast?.map (·.label)) ≠ some label
    -- lines 919-998
    let (m, todo, prior, res, err) : Option VManifest × List VFile × List BackRes × BackRes × Bool :=
      if isNew then
        let (m, st, err) := manifestFile (repo.manifest label) (repo.copy label) (decide (repo.current = some label)) repo.history
        (m, (m.map (·.files)).getD [], jd.backRes, ⟨label, st, false, ((m.map (·.files)).getD []).length, 0, 0, []⟩, err)
      else
        (jd.manifest, jd.todo, jd.backRes.dropLast,
          jd.backRes.getLast?.getD ⟨label, .valid, false, 0, 0, 0, []⟩, false)
    let errs := if err then jd.errs ++ [.manifest label] else jd.errs
    match m with
    | none => backupsLoop repo rest { jd with backRes := prior ++ [res], errs := errs }
    | some m =>
      -- lines 1001-1140
      if todo.isEmpty then
        -- lines 1141-1157
        backupsLoop repo rest { jd with
          backRes := prior ++ [{ res with status := .invalid }], errs := errs ++ [.empty label], manifest := none, todo := [] }
      else
        match filesLoop prior m todo res with
        | (some j, res, []) =>
          (some j, { jd with backRes := prior ++ [res], errs := errs, manifest := none, todo := [], backups := rest })
        | (some j, res, f :: left) =>
          (some j, { jd with backRes := prior ++ [res], errs := errs, manifest := some m, todo := f :: left, backups := label :: rest })
        | (none, res, _) => backupsLoop repo rest { jd with backRes := prior ++ [res], errs := errs, manifest := none, todo := [] }

/-- `verifyBackup` (901-1171). -/
def backup (repo : Repo) (jd : JobData) : Option Job × JobData := backupsLoop repo jd.backups jd

/-- `verifyJobCallback` (1176-1205). -/
def callback (repo : Repo) (jd : JobData) : Res (Option Job × JobData) := do
  let (job, jd) ← if jd.backupProcessing then pure (none, jd) else do
    let (job, jd) ← archive repo jd
    pure (job, { jd with backupProcessing := jd.archiveIds.isEmpty })
  if jd.backupProcessing ∧ job = none then pure (backup repo jd) else pure (job, jd)

/-- `verifyLogInvalidResult` (1243-1265): 0 for a WAL file that is missing. -/
def countsAsError (j : Job) (o : Outcome) : Bool :=
  match j, o with
  | .wal _ _, .missing => false
  | _, _ => true

/-- Change the first element that satisfies `p` (`lstFindIdx` and an update through the pointer). -/
def setFirst {α : Type} (p : α → Bool) (f : α → α) : List α → List α
  | [] => []
  | x :: l => if p x then f x :: l else x :: setFirst p f l

/-- The last part of a path: the segment is the begin of the name of the file (1792-1793, `filePathLst` is the path split at `/`). -/
def baseName (path : Str) : Str := (path.reverse.takeWhile (· ≠ slash)).reverse

/-- A job that is completed (1733-1848). -/
def complete (jd : JobData) (j : Job) (o : Outcome) : JobData :=
  let errs := if o ≠ .ok ∧ countsAsError j o then jd.errs ++ [.file j o] else jd.errs
  match j with
  | .wal id c =>
    { jd with
      errs := errs
      archRes := setFirst (fun r => r.id = id)
        (fun r => if o = .ok then { r with valid := r.valid + 1 }
          else { r with ranges := addInvalid c.path o (seg (baseName c.path)) r.ranges }) jd.archRes }
  | .bak label c =>
    { jd with
      errs := errs
      backRes := setFirst (fun r => r.label = label)
        (fun r =>
          let r := if o = .ok then { r with totalValid := r.totalValid + 1 }
            else { r with status := .invalid, invalid := r.invalid ++ [(c.path, o)] }
          if r.totalVerify = r.totalManifest then { r with complete := true } else r) jd.backRes }

/-! ## The parallel executor

`protocolParallelProcess` calls the callback for clients without a job and `protocolParallelResult` returns the jobs that are
done, each once (C29). The order of both depends on the schedule: an event is a call of the callback or the processing of the
result of one of the jobs that were handed out. With one process the callback is called for the next job as soon as the job
before is done, before its result is processed (`src/protocol/parallel.c` 158-234, verify.c 1724-1735). -/

/-- The state of the command with the jobs that are not completed, and, as history, the jobs that were handed out and those
completed with the outcome. -/
structure Sys where
  jd : JobData
  flight : List Job
  handed : List Job
  done : List (Job × Outcome)

inductive Event where
  | ask
  | finish (i : Nat)
  deriving DecidableEq, Repr

/-- One event. `out` is the outcome of the check of a file. -/
def step (repo : Repo) (out : Check → Outcome) (s : Sys) : Event → Res Sys
  | .ask => do
    let (job, jd) ← callback repo s.jd
    pure { s with jd := jd, flight := s.flight ++ job.toList, handed := s.handed ++ job.toList }
  | .finish i =>
    match s.flight[i]? with
    | none => .ok s
    | some j => .ok { s with
        jd := complete s.jd j (out j.check)
        flight := s.flight.eraseIdx i
        done := s.done ++ [(j, out j.check)] }

def run (repo : Repo) (out : Check → Outcome) : Sys → List Event → Res Sys
  | s, [] => .ok s
  | s, e :: es => do run repo out (← step repo out s e) es

/-- The state at the start (1614-1721). `inHistory` is what `verifySetBackupCheckArchive` (1210-1265) finds for the archive ids. -/
def start (ids backups : List Str) (inHistory : Bool) : Sys :=
  { jd :=
      { archiveIds := ids
        walPaths := []
        walFiles := []
        backups := backups
        manifest := none
        todo := []
        backupProcessing := ids.isEmpty
        errs := if inHistory then [] else [.history]
        archRes := []
        backRes := [] }
    flight := []
    handed := []
    done := [] }

/-- `verifyFile` (`src/command/verify/file.c` 17-82). `content` is the file, or the part of it, after the filters: `none` if it
does not exist, an error of a filter or of reading makes the job fail. -/
def verifyFile (sha1 : Str → Str) (content : Option (Res Str)) (c : Check) : Outcome :=
  match content with
  | none => .missing
  | some (.error _) => .other
  | some (.ok b) => if c.sum ≠ sha1 b then .checksum else if c.size ≠ b.length then .size else .ok

/-- What `verifyFile` reads (`src/command/verify/file.c` 43-55): the file, or the part of it, after the filters. `get` are the files
of the repository, `inv` decrypts and decompresses. -/
def readContent (get : Str → Option Str) (inv : Str → Res Str) (c : Check) : Option (Res Str) :=
  (get c.path).map fun b =>
    let b := match c.part with
      | some (offset, limit) => (b.drop offset).take limit
      | none => b
    if c.filter then inv b else .ok b

end Verif.Verify
