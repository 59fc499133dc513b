import Verif.Basic
import Verif.Common.Str

/-!
# Jobs of a backup

Model of `backupProcessQueueComparator`, `backupProcessQueue`, `backupJobQueueNext` and `backupJobCallback`
(src/command/backup/process.c.inc 350-765).

Sizes are natural numbers (their sums stay below 2^64). What a job tells the worker about its files is not modelled, only which files
it has.
-/

namespace Verif.Backup

/-- The fields of `ManifestFile` (src/info/manifest/manifest.h) that decide about queues and jobs. -/
structure File where
  name : Str
  copy : Bool
  size : Nat
  sizeOriginal : Nat
  reference : Option Str
  bundleId : Nat
  bundleOffset : Nat
  timestamp : Int
  deriving DecidableEq, Repr

/-- The fields of `BackupJobData` (process.c.inc 325-348) that decide about jobs. -/
structure Conf where
  standby : Bool
  bundle : Bool
  bundleSize : Nat
  bundleLimit : Nat
  deriving DecidableEq, Repr

/-- A file is bundled (process.c.inc 393-394, 660). -/
def bundled (c : Conf) (f : File) : Bool := c.bundle && decide (f.size ≤ c.bundleLimit)

/-- `backupProcessQueueComparator` (process.c.inc 377-452). `strCmp` compares bytes, a shorter string first. -/
def queueCmp (c : Conf) (f g : File) : Ordering :=
  if bundled c f ≠ bundled c g then (if bundled c f then .gt else .lt)
  else if !bundled c f then
    if f.size < g.size then .gt
    else if f.size > g.size then .lt
    else compare f.name g.name
  else
    let rest :=
      if f.timestamp < g.timestamp then .lt
      else if f.timestamp > g.timestamp then .gt
      else compare f.name g.name
    match f.reference, g.reference with
    | none, some _ => .gt
    | some _, none => .lt
    | none, none => rest
    | some r, some s =>
      if compare r s ≠ .eq then compare r s
      else if f.bundleId < g.bundleId then .lt
      else if f.bundleId > g.bundleId then .gt
      else if f.bundleOffset < g.bundleOffset then .lt
      else if f.bundleOffset > g.bundleOffset then .gt
      else rest

/-- `strBeginsWith`. -/
def beginsWith (s begin : Str) : Bool := s.take begin.length == begin

/-- Replace an element of a list. -/
def setAt {α : Type} (l : List α) (i : Nat) (f : α → α) : List α :=
  l.mapIdx fun j x => if j = i then f x else x

/-- The first target that contains the file (process.c.inc 535-546). -/
def findTarget (targets : List Str) (name : Str) : Option Nat := targets.findIdx? (fun t => beginsWith name t)

/-- One file put into the queues (process.c.inc 504-557). `primary` is `backupProcessFilePrimary` with the expression for files
of the standby. -/
def queueFile (c : Conf) (primary : Str → Bool) (targets : List Str) (qs : List (List File)) (f : File) : Res (List (List File)) :=
  if !f.copy then .ok qs
  else if c.standby && primary f.name then .ok (setAt qs 0 (· ++ [f]))
  else
    match findTarget targets f.name with
    | none => .error .assert
    | some i => .ok (setAt qs (i + if c.standby then 1 else 0) (· ++ [f]))

/-- All files put into the queues. -/
def queueFiles (c : Conf) (primary : Str → Bool) (targets : List Str) : List (List File) → List File → Res (List (List File))
  | qs, [] => .ok qs
  | qs, f :: rest =>
    match queueFile c primary targets qs f with
    | .error e => .error e
    | .ok qs' => queueFiles c primary targets qs' rest

/-- `pg_data/global/pg_control`. -/
def pgControl : Str :=
  [112, 103, 95, 100, 97, 116, 97, 47, 103, 108, 111, 98, 97, 108, 47, 112, 103, 95, 99, 111, 110, 116, 114, 111, 108]

/-- `backupProcessQueue` (process.c.inc 454-587). `sort` is `lstSort` with the comparator. -/
def processQueue (c : Conf) (online : Bool) (primary : Str → Bool) (targets : List Str) (sort : List File → List File)
    (files : List File) : Res (List (List File)) :=
  match queueFiles c primary targets (List.replicate (targets.length + if c.standby then 1 else 0) []) files with
  | .error e => .error e
  | .ok qs =>
    if online && !(files.any fun f => f.copy && f.name == pgControl) then .error .fileMissing
    else if !(files.any (·.copy)) then .error .fileMissing
    else .ok (qs.map sort)

/-- A job: its bundle id, or the name of its only file (process.c.inc 745-746). -/
structure Job where
  bundleId : Option Nat
  files : List File
  deriving DecidableEq, Repr

/-- The rest of the loop of a bundle after its first file (process.c.inc 648-738): files are added until the size is reached or the
queue is empty. `size` is `fileSize`. Returns the files and the rest of the queue. -/
def fill (c : Conf) : Nat → List File → List File × List File
  | _, [] => ([], [])
  | size, f :: rest =>
    if size ≥ c.bundleSize then ([], f :: rest)
    else
      let (fs, rest') := fill c (size + f.sizeOriginal) rest
      (f :: fs, rest')

/-- A job from one queue (process.c.inc 643-754), and the rest of the queue. -/
def takeJob (c : Conf) (bundleId : Nat) : List File → Option (Job × List File)
  | [] => none
  | f :: rest =>
    if bundled c f then
      let (fs, rest') := fill c f.sizeOriginal rest
      some (⟨some bundleId, f :: fs⟩, rest')
    else some (⟨none, [f]⟩, rest)

/-- `backupJobQueueNext` (process.c.inc 590-609). -/
def queueNext (client : Nat) (i : Int) (total : Nat) : Int :=
  let j := i + if client % 2 = 1 then -1 else 1
  if j < 0 then (total : Int) - 1
  else if j = (total : Int) then 0
  else j

/-- What `backupJobCallback` works on. -/
structure JobData where
  bundleId : Nat
  queues : List (List File)
  deriving DecidableEq, Repr

/-- The queue index that must exist: `lstGet` out of bounds is undefined. -/
def getQueue (qs : List (List File)) (i : Int) : List File := if i < 0 then [] else qs.getD i.toNat []

/-- The loop over queues (process.c.inc 641-760). `fuel` bounds the passes; `jobLoop_fuel` shows that it does not matter. -/
def jobLoop (c : Conf) (d : JobData) (client offset total : Nat) (qEnd : Int) : Nat → Int → Option Job × JobData
  | 0, _ => (none, d)
  | fuel + 1, q =>
    match takeJob c d.bundleId (getQueue d.queues (q + offset)) with
    | some (job, rest) =>
      (some job,
        { bundleId := if job.bundleId.isSome then d.bundleId + 1 else d.bundleId
          queues := setAt d.queues (q + offset).toNat (fun _ => rest) })
    | none =>
      let q' := if !c.standby || client > 0 then queueNext client q total else q
      if q' ≠ qEnd then jobLoop c d client offset total qEnd fuel q' else (none, d)

/-- `backupJobCallback` (process.c.inc 612-765). -/
def jobCallback (c : Conf) (d : JobData) (client : Nat) : Option Job × JobData :=
  let offset := if c.standby && decide (client > 0) then 1 else 0
  let total := d.queues.length - offset
  let q : Int := if c.standby && client == 0 then 0 else ((client % total : Nat) : Int)
  jobLoop c d client offset total q total q

end Verif.Backup
