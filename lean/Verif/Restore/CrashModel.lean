import Verif.Fs.Model
import Verif.Restore.CleanModel

/-! # Model of a restore that can be stopped at any time (src/command/restore/restore.c 124-259)

The processes of a restore work on one file system with the crash semantics of `Verif.Fs`. Each process has at most one file open. Links on the way
to a file are followed beforehand, so every file, path and link of the manifest has a place. The main process is 0, the local processes are
the others.

What is removed by the clean phase is modelled in `Verif.Restore.CleanModel`, what is done with one file in `Verif.Restore.FileModel`. Here any
removal below the targets is allowed, and files are restored with the system calls that belong to what was decided for them. -/

namespace Verif.Restore.Crash

open Verif Verif.Fs
open Verif.Manifest (pgdataZ pgTblspcZ)
open Verif.Restore.Clean (controlZ globalNameZ manifestFileZ)

/-! ## System calls of several processes -/

/-- System calls: those of `Verif.Fs`, `ftruncate` of the open file and `rmdir`. -/
inductive Op where
  | sys (s : Sys)
  | trunc (n : Nat)
  | rmdir (p : Path)
  deriving DecidableEq

/-- The file system and the files that the processes have open with their positions. `fs.fd` is not used. -/
structure St where
  fs : Fs
  fds : Nat → Option (Nat × Nat)

/-- `ftruncate`: the file is cut or zeros are appended. -/
def resize (n : Nat) (d : Str) : Str := d.take n ++ List.replicate (n - d.length) 0

/-- A system call of a process that succeeds. That the directory is empty is not required of `rmdir`. -/
def act (st : St) (k : Nat) : Op → Option St
  | .sys s => (exec { st.fs with fd := st.fds k } s).map fun f => ⟨f, upd st.fds k f.fd⟩
  | .trunc n =>
    match st.fds k with
    | none => none
    | some (i, _) => some { st with fs := { st.fs with inode := upd st.fs.inode i ⟨resize n (st.fs.inode i).data, false⟩ } }
  | .rmdir p => if parentDir st.fs p = true ∧ st.fs.cur p = .dir then some { st with fs := setEnt st.fs p .missing } else none

/-- A system call with the process that does it. -/
abbrev Ev := Nat × Op

/-- All of these succeed. -/
def full (st : St) : List Ev → Option St
  | [] => some st
  | (k, op) :: tr => (act st k op).bind fun st1 => full st1 tr

/-- The states in which a sequence can be stopped, see `Fs.Reach`. -/
inductive Stops : St → List Ev → St → Prop
  | stop (st : St) (tr : List Ev) : Stops st tr st
  | part {st st' : St} {k : Nat} {d : Str} (tr : List Ev) (n : Nat) : act st k (.sys (.write (d.take n))) = some st' → Stops st ((k, .sys (.write d)) :: tr) st'
  | step {st st1 st' : St} {k : Nat} {op : Op} {tr : List Ev} : act st k op = some st1 → Stops st1 tr st' → Stops st ((k, op) :: tr) st'

/-- A part of the program: the sequences of system calls it may do from a state. -/
abbrev Node := St → List Ev → Prop

/-- The states in which a program can be stopped. -/
inductive Run : St → List Node → St → Prop
  | stop (st : St) (ns : List Node) : Run st ns st
  | here {st st' : St} {n : Node} {ns : List Node} {tr : List Ev} : n st tr → Stops st tr st' → Run st (n :: ns) st'
  | next {st st1 st' : St} {n : Node} {ns : List Node} {tr : List Ev} : n st tr → full st tr = some st1 → Run st1 ns st' → Run st (n :: ns) st'

/-- The state when a program is done. -/
inductive Done : St → List Node → St → Prop
  | nil (st : St) : Done st [] st
  | next {st st1 st' : St} {n : Node} {ns : List Node} {tr : List Ev} : n st tr → full st tr = some st1 → Done st1 ns st' → Done st (n :: ns) st'

/-- The main process does this. -/
def main (ops : List Sys) : List Ev := ops.map fun s => (0, .sys s)

/-! ## What is restored -/

/-- `pg_data/global` -/
def globalMZ : Str := pgdataZ ++ 47 :: globalNameZ

/-- `pg_data/global/pg_control` -/
def controlMZ : Str := globalMZ ++ 47 :: controlZ

/-- What is done with the content of a file (file.c.inc 195-217, 240-359). `copy` has the buffers with the positions that are sought; `keep` is
`noTruncate`. -/
inductive What where
  | preserve
  | zero (size : Nat)
  | copy (keep : Bool) (bufs : List (Option Nat × Str))
  deriving DecidableEq

/-- A file of a job: its name in the manifest, the size to which it is truncated first (file.c.inc 99-127), and what is done with it. -/
structure JFile where
  name : Str
  cut : Option Nat
  what : What
  deriving DecidableEq

/-- A path of the manifest with its place, and the destination when it is a link (clean.c.inc 577-581). A link has the place of the link in `link`. -/
structure PathAt where
  name : Str
  place : Path
  link : Option (Path × Str)
  deriving DecidableEq

/-- What is given: the data directory, the directory `global`, the directories of the targets, paths and links of the manifest, directories of
targets that are links to files, the names of all files with their places, the recovery files that are written, whether the backup was made
online, the content that each file should have, and what `pgControlCheckpointInvalidate` makes of `pg_control`. -/
structure Cfg where
  pg : Path
  glob : Path
  targets : List Path
  paths : List PathAt
  links : List (Path × Str)
  fileDirs : List Path
  files : List Str
  place : Str → Path
  recovery : List Str
  online : Bool
  data : Str → Str
  invalid : Str → Str

/-- `global/pg_control` -/
def Cfg.control (c : Cfg) : Path := controlZ :: c.glob

/-- `global/pg_control.pgbackrest.tmp` -/
def Cfg.tmp (c : Cfg) : Path := (controlZ ++ tempExt) :: c.glob

/-- `restoreFilePgPath` (process.c.inc 179-200). -/
def Cfg.filePath (c : Cfg) (name : Str) : Path := if name = controlMZ then c.tmp else c.place name

/-! ## Clean and build -/

/-- `storageExists`: there is a file. -/
def isFile : Ent → Bool
  | .file _ => true
  | _ => false

/-- The removal of `pg_control` (clean.c.inc 503-511). -/
def removeControl (c : Cfg) : Node := fun st tr =>
  tr = if isFile (st.fs.cur c.control) then main [.unlink c.control, .syncDir c.glob] else []

/-- Something that the clean phase does (clean.c.inc 222-356, 513-562): it removes what is below a target, or makes the directory of a target
with its parents. -/
def CleanOp (c : Cfg) : Op → Prop
  | .sys (.unlink p) => ∃ t ∈ c.targets, ∃ r, r ≠ [] ∧ p = r ++ t
  | .rmdir p => ∃ t ∈ c.targets, ∃ r, r ≠ [] ∧ p = r ++ t
  | .sys (.mkdir p) => ∃ t ∈ c.targets, p <:+ t
  | _ => False

/-- Step 2 (clean.c.inc 513-562). -/
def cleanTargets (c : Cfg) : Node := fun _ tr => ∃ ops : List Op, (∀ op ∈ ops, CleanOp c op) ∧ tr = ops.map fun op => (0, op)

/-- Step 3 for a path (clean.c.inc 566-615). -/
def buildPath (p : PathAt) : Node := fun st tr =>
  if p.name = pgTblspcZ then tr = []
  else
    match p.link with
    | some (l, dest) => tr = if st.fs.cur l = .missing then main [.symlink l dest] else []
    | none => tr = if st.fs.cur p.place = .missing then main [.mkdir p.place] else []

/-- Step 4 for a link (clean.c.inc 619-634). -/
def buildLink (l : Path × Str) : Node := fun st tr => tr = if st.fs.cur l.1 = .missing then main [.symlink l.1 l.2] else []

/-! ## Files -/

/-- `backup.manifest` is written to the data directory (restore.c 131). -/
def manifestWriter (c : Cfg) : Writer := ⟨c.pg, manifestFileZ, true, true, true, true, true⟩

def saveManifest (c : Cfg) : Node := fun st tr => ∃ bufs, tr = main (writeOps (manifestWriter c) st.fs bufs)

/-- A file is opened, changed, synced and closed (`noAtomic`, `noCreatePath`, `noSyncPath`). -/
def writeFile (p : Path) (trunc : Bool) (body : List Op) : List Op :=
  .sys (.openWrite p trunc) :: body ++ [.sys .fsync, .sys .close]

/-- A file that is too long is truncated (file.c.inc 99-127). -/
def cutOps (c : Cfg) (f : JFile) : List Op :=
  match f.cut with
  | none => []
  | some n => writeFile (c.filePath f.name) false [.trunc n]

/-- The system calls of the first loop for a file (file.c.inc 59-230). -/
def checkOps (c : Cfg) (f : JFile) : List Op :=
  cutOps c f ++
  match f.what with
  | .zero n => writeFile (c.filePath f.name) true [.trunc n]
  | _ => []

/-- A buffer is written, maybe elsewhere. -/
def bufOps (b : Option Nat × Str) : List Op := (b.1.map fun n => Op.sys (.seek n)).toList ++ [.sys (.write b.2)]

/-- The system calls of the second loop for a file (file.c.inc 235-372). -/
def copyOps (c : Cfg) (f : JFile) : List Op :=
  match f.what with
  | .copy keep bufs => writeFile (c.filePath f.name) (!keep) (bufs.flatMap bufOps)
  | _ => []

/-- The system calls of a job (file.c.inc 30-377). -/
def jobOps (c : Cfg) (job : List JFile) : List Op := job.flatMap (checkOps c) ++ job.flatMap (copyOps c)

/-- The interleavings of what the processes do. -/
inductive Inter : (Nat → List Op) → List Ev → Prop
  | nil {w : Nat → List Op} : (∀ k, w k = []) → Inter w []
  | step {w : Nat → List Op} {k : Nat} {op : Op} {ops : List Op} {tr : List Ev} : w k = op :: ops → Inter (upd w k ops) tr → Inter w ((k, op) :: tr)

/-- The content of the file at a place. -/
def contentAt (fs : Fs) (p : Path) : Option Inode :=
  match fs.cur p with
  | .file i => some (fs.inode i)
  | _ => none

/-- Buffers written one after the other. -/
def writeBufs : Nat → Str → List (Option Nat × Str) → Str
  | _, d, [] => d
  | pos, d, (s, b) :: bufs => writeBufs (s.getD pos + b.length) (splice d (s.getD pos) b) bufs

/-- What is in the file after it was truncated. -/
def cutTo (was : Option Str) (f : JFile) : Option Str :=
  match f.cut with
  | none => was
  | some n => some (resize n (was.getD []))

/-- What is in the file at the end. -/
def result (was : Option Str) (f : JFile) : Option Str :=
  match f.what with
  | .preserve => cutTo was f
  | .zero n => some (List.replicate n 0)
  | .copy keep bufs => some (writeBufs 0 (if keep then (cutTo was f).getD [] else []) bufs)

/-- What the local processes do: each file is in a job of one process, and for each file what was decided is right for what is there (this is
what `Verif.Restore.JobProps` and `Verif.Restore.FileProps` are about). -/
structure Assigned (c : Cfg) (st : St) (jobs : Nat → List (List JFile)) : Prop where
  main : jobs 0 = []
  all : ∀ n ∈ c.files, ∃ k, ∃ job ∈ jobs k, ∃ f ∈ job, f.name = n
  only : ∀ k, ∀ job ∈ jobs k, ∀ f ∈ job, f.name ∈ c.files
  once : ∀ k, ((jobs k).flatten.map JFile.name).Nodup
  one : ∀ k l, ∀ f ∈ (jobs k).flatten, ∀ g ∈ (jobs l).flatten, f.name = g.name → k = l
  right : ∀ k, ∀ f ∈ (jobs k).flatten, result ((contentAt st.fs (c.filePath f.name)).map Inode.data) f = some (c.data f.name)

/-- The jobs (restore.c 149-167). -/
def restoreFiles (c : Cfg) : Node := fun st tr => ∃ jobs, Assigned c st jobs ∧ Inter (fun k => (jobs k).flatMap (jobOps c)) tr

/-! ## The end -/

/-- A recovery file is written (config.c.inc 220-224, 331-354). -/
def recoveryWriter (c : Cfg) (name : Str) : Writer := ⟨c.pg, name, false, false, true, false, true⟩

def writeRecovery (c : Cfg) (name : Str) : Node := fun st tr => ∃ bufs, tr = main (writeOps (recoveryWriter c name) st.fs bufs)

/-- `backup.manifest` is removed (restore.c 178). -/
def removeManifest (c : Cfg) : Node := fun st tr =>
  tr = if st.fs.cur (manifestWriter c).name = .missing then [] else main [.unlink (manifestWriter c).name]

/-- The directories that are synced before `pg_control` is renamed (restore.c 183-223). -/
def synced (c : Cfg) : List Path :=
  c.fileDirs ++ (c.paths.filter fun p => p.name ≠ pgTblspcZ ∧ p.name ≠ globalMZ).map PathAt.place

def syncPaths (c : Cfg) : Node := fun _ tr => tr = main ((synced c).map .syncDir)

/-- The checkpoint in `pg_control` is made invalid (restore.c 230-243). -/
def controlWriter (c : Cfg) : Writer := ⟨c.glob, controlZ ++ tempExt, false, false, true, false, true⟩

/-- `pg_control` gets its name (restore.c 227-254). -/
def renameControl (c : Cfg) : Node := fun st tr =>
  if isFile (st.fs.cur c.tmp) then
    ∃ bufs : List Str, (contentAt st.fs c.tmp).map (fun i => c.invalid i.data) = some bufs.flatten ∧
      tr = main ((if c.online then writeOps (controlWriter c) st.fs bufs else []) ++ [.rename c.tmp c.control])
  else tr = []

/-- `global` is synced (restore.c 259). -/
def syncGlobal (c : Cfg) : Node := fun _ tr => tr = main [.syncDir c.glob]

/-- What comes after the removal of `pg_control` up to the syncs (clean.c.inc 513-634, restore.c 131-223). -/
def before (c : Cfg) : List Node :=
  [cleanTargets c] ++ c.paths.map buildPath ++ c.links.map buildLink ++ [saveManifest c]

def after (c : Cfg) : List Node := c.recovery.map (writeRecovery c) ++ [removeManifest c, syncPaths c]

/-- A restore from the first change on (clean.c.inc 501-634, restore.c 127-259). -/
def restore (c : Cfg) : List Node :=
  [removeControl c] ++ before c ++ [restoreFiles c] ++ after c ++ [renameControl c, syncGlobal c]

end Verif.Restore.Crash
