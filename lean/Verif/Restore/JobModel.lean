import Verif.Basic
import Verif.Common.Str

/-!
# Jobs of a restore

Model of `restoreProcessQueueComparator`, `restoreProcessQueue`, `restoreJobQueueNext` and `restoreJobCallback`
(src/command/restore/process.c.inc) with `backupFileRepoPath` (src/command/backup/common.c).

A job has the file of the repository it reads and, for each of its files, the name and the part of the repository file. The other
parameters are copied from the manifest or the options. Sizes and offsets are natural numbers (their sums stay below 2^64).
-/

namespace Verif.Restore.Job

/-- The fields of `ManifestFile` (src/info/manifest/manifest.h) that decide about queues and jobs. -/
structure File where
  name : Str
  size : Nat
  sizeRepo : Nat
  reference : Option Str
  bundleId : Nat
  bundleOffset : Nat
  blockIncrMapSize : Nat
  deriving DecidableEq, Repr

/-- `restoreProcessQueueComparator` (process.c.inc 7-74). The assertions that names and offsets differ are left out. -/
def queueCmp (f g : File) : Ordering :=
  if f.size = 0 ∧ g.size ≠ 0 then .gt
  else if f.size ≠ 0 ∧ g.size = 0 then .lt
  else if f.bundleId < g.bundleId then .lt
  else if f.bundleId > g.bundleId then .gt
  else if f.bundleId = 0 then
    if f.size < g.size then .gt
    else if f.size > g.size then .lt
    else compare g.name f.name
  else
    let rest := if f.bundleOffset < g.bundleOffset then .lt else .gt
    match f.reference, g.reference with
    | none, some _ => .gt
    | some _, none => .lt
    | none, none => rest
    | some r, some s => if (compare s r).swap ≠ .eq then (compare s r).swap else rest

/-- `strBeginsWith`. -/
def beginsWith (s begin : Str) : Bool := s.take begin.length == begin

/-- Add a file to one of the queues. -/
def addAt (qs : List (List File)) (i : Nat) (f : File) : List (List File) := qs.mapIdx fun j q => if j = i then q ++ [f] else q

/-- `targetList` (process.c.inc 96-105). `targets` are the names of the targets with their tablespace id. -/
def targetList (targets : List (Str × Nat)) : List Str :=
  [112, 103, 95, 100, 97, 116, 97, 47] :: (targets.filter (fun t => t.2 != 0)).map (fun t => t.1 ++ [47])

/-- All files put into the queues (process.c.inc 119-144). -/
def queueFiles (targets : List Str) : List (List File) → List File → Res (List (List File))
  | qs, [] => .ok qs
  | qs, f :: rest =>
    match targets.findIdx? (fun t => beginsWith f.name t) with
    | none => .error .format
    | some i => queueFiles targets (addAt qs i f) rest

/-- `restoreProcessQueue` (process.c.inc 76-158): the queues and the size of all files. `sort` is `lstSort` with the comparator. -/
def processQueue (targets : List (Str × Nat)) (sort : List File → List File) (files : List File) : Res (List (List File) × Nat) :=
  match queueFiles (targetList targets) (List.replicate (targetList targets).length []) files with
  | .error e => .error e
  | .ok qs => .ok (qs.map sort, (files.map (·.size)).sum)

/-- The file of the repository a job reads. -/
inductive RepoPath where
  | bundle (label : Str) (id : Nat)
  | file (label : Str) (name : Str) (blockIncr : Bool)
  deriving DecidableEq, Repr

/-- `backupFileRepoPath` (src/command/backup/common.c 19-45) without the formatting. The extension for compression is the same for all
files of a backup. -/
def repoPath (label name : Str) (bundleId : Nat) (blockIncr : Bool) : RepoPath :=
  if bundleId ≠ 0 then .bundle label bundleId else .file label name blockIncr

/-- What is read for one file (process.c.inc 447-463): nothing for the whole repository file, else offset and size. -/
def part (f : File) : Option (Nat × Nat) :=
  if f.blockIncrMapSize ≠ 0 then some (f.bundleOffset + f.sizeRepo - f.blockIncrMapSize, f.blockIncrMapSize)
  else if f.bundleId ≠ 0 then some (f.bundleOffset, f.sizeRepo)
  else none

/-- A job: the repository file and its files with the parts to read. -/
structure Job where
  path : RepoPath
  files : List (File × Option (Nat × Nat))
  deriving DecidableEq, Repr

/-- The rest of the loop of a job after its first file (process.c.inc 398-482). -/
def fill (bundleId : Nat) (reference : Option Str) : List File → List File × List File
  | [] => ([], [])
  | f :: rest =>
    if bundleId ≠ f.bundleId ∨ reference ≠ f.reference then ([], f :: rest)
    else
      let (fs, rest') := fill bundleId reference rest
      (f :: fs, rest')

/-- A job from one queue (process.c.inc 392-495), and the rest of the queue. `label` is the label of the backup. -/
def takeJob (label : Str) : List File → Option (Job × List File)
  | [] => none
  | f :: rest =>
    let path := repoPath (f.reference.getD label) f.name f.bundleId (decide (f.blockIncrMapSize ≠ 0))
    let (fs, rest') := if f.bundleId ≠ 0 then fill f.bundleId f.reference rest else ([], rest)
    some (⟨path, (f :: fs).map fun g => (g, part g)⟩, rest')

/-- `restoreJobQueueNext` (process.c.inc 344-364). -/
def queueNext (client : Nat) (i : Int) (total : Nat) : Int :=
  let j := i + if client % 2 = 1 then -1 else 1
  if j < 0 then (total : Int) - 1
  else if j = (total : Int) then 0
  else j

/-- The loop over queues (process.c.inc 390-499). `fuel` bounds the passes. -/
def jobLoop (label : Str) (qs : List (List File)) (client : Nat) (qEnd : Int) : Nat → Int → Option Job × List (List File)
  | 0, _ => (none, qs)
  | fuel + 1, q =>
    match takeJob label (if q < 0 then [] else qs.getD q.toNat []) with
    | some (job, rest) => (some job, qs.mapIdx fun j x => if (j : Int) = q then rest else x)
    | none =>
      let q' := queueNext client q qs.length
      if q' ≠ qEnd then jobLoop label qs client qEnd fuel q' else (none, qs)

/-- `restoreJobCallback` (process.c.inc 367-504). -/
def jobCallback (label : Str) (qs : List (List File)) (client : Nat) : Option Job × List (List File) :=
  let q : Int := ((client % qs.length : Nat) : Int)
  jobLoop label qs client q qs.length q

end Verif.Restore.Job
