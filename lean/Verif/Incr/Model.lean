import Verif.Basic
import Verif.Common.Str

/-! # Model of incremental manifests (src/info/manifest/manifest.c) and of the job results (process.c.inc) -/

namespace Verif.Incr

/-- `ManifestFile`, src/info/manifest/manifest.h. The page checksum fields are one opaque field; user, group and mode are
left out (they are not used here). -/
structure File where
  name : Str
  copy : Bool
  delta : Bool
  size : Nat
  sizeOriginal : Nat
  sizeRepo : Nat
  timestamp : Int
  checksum : Str
  checksumRepo : Option Str
  reference : Option Str
  checksumPage : Str
  bundleId : Nat
  bundleOffset : Nat
  blockIncrSize : Nat
  blockIncrChecksumSize : Nat
  blockIncrMapSize : Nat
  deriving DecidableEq

/-- `Manifest` (only what is used here). -/
structure Manifest where
  label : Str
  labelPrior : Option Str
  referenceList : List Str
  online : Bool
  delta : Bool
  archiveStop : Option Str
  files : List File

/-- `manifestFileFind`/`manifestFilePackFindDefault`, src/info/manifest/store.c.inc (a binary search in a sorted list of
files with unique names). -/
def Manifest.find (m : Manifest) (name : Str) : Option File := m.files.find? fun f => decide (f.name = name)

/-- `manifestBuildValidate`, src/info/manifest/manifest.c:308-363: the delta option is enabled when a file has a timestamp
in the future. -/
def buildValidate (m : Manifest) (delta : Bool) (copyStart : Int) : Manifest :=
  { m with delta := delta || m.files.any fun f => decide (copyStart < f.timestamp) }

/-- One file of `manifestDeltaCheck`, src/info/manifest/manifest.c:381-411. -/
def deltaAnomaly (prior : Manifest) (file : File) : Bool :=
  match prior.find file.name with
  | none => false
  | some filePrior =>
    decide (file.timestamp < filePrior.timestamp) ||
      (file.sizeOriginal != filePrior.sizeOriginal && file.timestamp == filePrior.timestamp)

/-- The delta option after lines 456-478 of src/info/manifest/manifest.c (`manifestDeltaCheck` included). -/
def deltaEnable (m prior : Manifest) (archiveStart : Option Str) : Bool :=
  let timeline :=
    match archiveStart, prior.archiveStop with
    | some start, some stop => start.take 8 != stop.take 8
    | _, _ => false
  let enabled := m.delta || timeline || (prior.online != m.online)
  enabled || m.files.any (deltaAnomaly prior)

/-- The update of a file that is in the prior manifest, src/info/manifest/manifest.c:495-558. -/
def incrFile (delta : Bool) (priorLabel : Str) (filePrior file : File) : File :=
  let sizeEqual := file.size == filePrior.size
  let preserve := decide (filePrior.blockIncrMapSize > 0) && decide (file.size ≥ filePrior.blockIncrSize)
  let fileDelta := delta && sizeEqual && file.size != 0
  let copy := if file.size = 0 ∧ filePrior.size = 0 then false else file.copy
  let copy := if fileDelta = false ∧ sizeEqual = true ∧ file.timestamp = filePrior.timestamp then false else copy
  let file := { file with delta := fileDelta, copy := copy }
  if sizeEqual || preserve then
    { file with
      size := filePrior.size
      sizeRepo := filePrior.sizeRepo
      checksum := filePrior.checksum
      checksumRepo := filePrior.checksumRepo
      reference := some (filePrior.reference.getD priorLabel)
      checksumPage := filePrior.checksumPage
      bundleId := filePrior.bundleId
      bundleOffset := filePrior.bundleOffset
      blockIncrSize := filePrior.blockIncrSize
      blockIncrChecksumSize := filePrior.blockIncrChecksumSize
      blockIncrMapSize := filePrior.blockIncrMapSize }
  else file

/-- One file of the loop at src/info/manifest/manifest.c:483-563. -/
def incrStep (delta : Bool) (prior : Manifest) (file : File) : File :=
  match (if file.copy then prior.find file.name else none) with
  | none => file
  | some filePrior => incrFile delta prior.label filePrior file

/-- `manifestBuildIncr`, src/info/manifest/manifest.c:421-568. -/
def buildIncr (m prior : Manifest) (archiveStart : Option Str) : Manifest :=
  let delta := deltaEnable m prior archiveStart
  { m with
    labelPrior := some prior.label
    referenceList := prior.referenceList
    delta := delta
    files := m.files.map (incrStep delta prior) }

/-- `manifestBackupLabelSet`, src/info/manifest/manifest.c:845-865. -/
def labelSet (m : Manifest) (label : Str) : Manifest :=
  { m with label := label, referenceList := m.referenceList ++ [label] }

/-- What a copy stored (fields of `BackupFileResult` used in `backupJobResult`). -/
structure Copied where
  size : Nat
  sizeRepo : Nat
  checksum : Str
  checksumRepo : Option Str
  checksumPage : Str
  bundleId : Nat
  bundleOffset : Nat
  blockIncrMapSize : Nat

/-- `BackupCopyResult`, src/command/backup/file.h (a resumed file is modelled in C34/C48). -/
inductive CopyResult where
  | noop
  | skip
  | copied (c : Copied)

/-- `backupJobResult`, src/command/backup/process.c.inc:134-303, for one file. `none`: the file is removed from the
manifest when the backup completes. Files that are not copied have no job. -/
def jobResult (result : Str → CopyResult) (file : File) : Option File :=
  if file.copy = false then some file
  else
    match result file.name with
    | .noop => some file
    | .skip => none
    | .copied c => some { file with
        size := c.size
        sizeRepo := c.sizeRepo
        checksum := c.checksum
        checksumRepo := c.checksumRepo
        reference := none
        checksumPage := c.checksumPage
        bundleId := c.bundleId
        bundleOffset := c.bundleOffset
        blockIncrMapSize := c.blockIncrMapSize }

/-- The manifest when all jobs are complete. -/
def complete (m : Manifest) (result : Str → CopyResult) : Manifest :=
  { m with files := m.files.filterMap (jobResult result) }

end Verif.Incr
