import Verif.Basic
import Verif.Common.Str

/-!
# Files, directories and crashes

System calls used by the posix storage driver (src/storage/posix/write.c, storage.c) on a file system that can crash.

What is kept by a crash is the least that POSIX promises:

- the content of a file is kept when `fsync` was called after the last change, else any content may be found;
- the entries of a directory are kept when `fsync` was called on the directory after the last change, else each entry may be any of the
  entries it was since the last `fsync`, for each name independently. A rename therefore replaces the entry of the destination at once, but
  the old name may be found as well.

Not modelled: permissions and owners, times, removing directories, symbolic links on the way to a file, and other processes changing the same
files at the same time.
-/

namespace Verif.Fs

/-- A path: the names from the last to the first, so `tail` is the directory. -/
abbrev Path := List Str

/-- An entry of a directory. -/
inductive Ent where
  | missing
  | dir
  | file (i : Nat)
  | link (target : Str)
  deriving DecidableEq, Repr

/-- The content of a file and whether it was synced since it changed. -/
structure Inode where
  data : Str
  synced : Bool
  deriving DecidableEq, Repr

/-- The file system: the entries as processes see them, what they may be after a crash, the files, the number of the next file, and the file
the process has open with its position. -/
structure Fs where
  cur : Path → Ent
  hist : Path → List Ent
  inode : Nat → Inode
  next : Nat
  fd : Option (Nat × Nat)

/-- Change a function in one place. -/
def upd {α β : Type} [DecidableEq α] (f : α → β) (a : α) (b : β) : α → β := fun x => if x = a then b else f x

/-- Change an entry. What it was before may still be found after a crash. -/
def setEnt (fs : Fs) (p : Path) (e : Ent) : Fs :=
  { fs with cur := upd fs.cur p e, hist := upd fs.hist p (e :: fs.hist p) }

/-- Write at a position: bytes after the end are zero. -/
def splice (data : Str) (pos : Nat) (d : Str) : Str :=
  data.take pos ++ List.replicate (pos - data.length) 0 ++ d ++ data.drop (pos + d.length)

/-- System calls. -/
inductive Sys where
  /-- `mkdir` (storage.c 416) -/
  | mkdir (p : Path)
  /-- `open` with `O_CREAT | O_WRONLY` and maybe `O_TRUNC` (write.c 98-100) -/
  | openWrite (p : Path) (trunc : Bool)
  /-- `write` (write.c 179) -/
  | write (d : Str)
  /-- `lseek` (write.c 202) -/
  | seek (pos : Nat)
  /-- `fsync` of the open file (write.c 226) -/
  | fsync
  /-- `close` (write.c 230) -/
  | close
  /-- `rename` of a file (write.c 246) -/
  | rename (a b : Path)
  /-- `unlink` (storage.c 566) -/
  | unlink (p : Path)
  /-- `symlink` (storage.c, storagePosixLinkCreate) -/
  | symlink (p : Path) (target : Str)
  /-- `fsync` of a directory (storage.c 506-548) -/
  | syncDir (p : Path)
  deriving DecidableEq, Repr

/-- The directory of a path is there. -/
def parentDir (fs : Fs) : Path → Bool
  | [] => false
  | _ :: d => fs.cur d == .dir

/-- A system call that succeeds; nothing when it cannot succeed. -/
def exec (fs : Fs) : Sys → Option Fs
  | .mkdir p => if parentDir fs p = true ∧ fs.cur p = .missing then some (setEnt fs p .dir) else none
  | .openWrite p trunc =>
    if parentDir fs p = true then
      match fs.cur p with
      | .file i => some { fs with inode := if trunc then upd fs.inode i ⟨[], false⟩ else fs.inode, fd := some (i, 0) }
      | .missing =>
        some { setEnt fs p (.file fs.next) with
          inode := upd fs.inode fs.next ⟨[], false⟩, next := fs.next + 1, fd := some (fs.next, 0) }
      | _ => none
    else none
  | .write d =>
    match fs.fd with
    | some (i, pos) =>
      some { fs with inode := upd fs.inode i ⟨splice (fs.inode i).data pos d, false⟩, fd := some (i, pos + d.length) }
    | none => none
  | .seek pos =>
    match fs.fd with
    | some (i, _) => some { fs with fd := some (i, pos) }
    | none => none
  | .fsync =>
    match fs.fd with
    | some (i, _) => some { fs with inode := upd fs.inode i ⟨(fs.inode i).data, true⟩ }
    | none => none
  | .close =>
    match fs.fd with
    | some _ => some { fs with fd := none }
    | none => none
  | .rename a b =>
    if parentDir fs a = true ∧ parentDir fs b = true ∧ fs.cur b ≠ .dir ∧ fs.cur a ≠ .dir ∧ fs.cur a ≠ .missing then
      some (if a = b then fs else setEnt (setEnt fs a .missing) b (fs.cur a))
    else none
  | .unlink p =>
    if parentDir fs p = true ∧ fs.cur p ≠ .dir ∧ fs.cur p ≠ .missing then some (setEnt fs p .missing) else none
  | .symlink p target => if parentDir fs p = true ∧ fs.cur p = .missing then some (setEnt fs p (.link target)) else none
  | .syncDir p =>
    if fs.cur p = .dir then some { fs with hist := fun q => if q ≠ [] ∧ q.tail = p then [fs.cur q] else fs.hist q } else none

/-- The states in which a process that does these system calls can be stopped: before any of them, after a part of a write, or after an
error, which also ends the sequence. -/
inductive Reach : Fs → List Sys → Fs → Prop
  | stop (fs : Fs) (ops : List Sys) : Reach fs ops fs
  | part {fs fs' : Fs} {d : Str} (ops : List Sys) (k : Nat) : exec fs (.write (d.take k)) = some fs' → Reach fs (.write d :: ops) fs'
  | step {fs fs1 fs' : Fs} {op : Sys} {ops : List Sys} : exec fs op = some fs1 → Reach fs1 ops fs' → Reach fs (op :: ops) fs'

/-- The state when all system calls succeeded. -/
def done (fs : Fs) : List Sys → Option Fs
  | [] => some fs
  | op :: ops => (exec fs op).bind fun fs1 => done fs1 ops

/-! ## After a crash -/

/-- What is found at a path. -/
inductive Found where
  | missing
  | dir
  | file (data : Str)
  | link (target : Str)
  deriving DecidableEq, Repr

/-- All directories of the path are there. -/
def up (e : Path → Ent) : Path → Bool
  | [] => true
  | _ :: d => up e d && e d == .dir

/-- Follow the path. -/
def look (e : Path → Ent) (r : Nat → Str) (p : Path) : Found :=
  if up e p = true then
    match e p with
    | .missing => .missing
    | .dir => .dir
    | .file i => .file (r i)
    | .link t => .link t
  else .missing

/-- What may be found after a crash. -/
def Crash (fs : Fs) (disk : Path → Found) : Prop :=
  ∃ (e : Path → Ent) (r : Nat → Str), (∀ p, e p ∈ fs.hist p) ∧ (∀ i, (fs.inode i).synced = true → r i = (fs.inode i).data) ∧
    ∀ p, disk p = look e r p

/-- What a process sees. -/
def view (fs : Fs) (p : Path) : Found := look fs.cur (fun i => (fs.inode i).data) p

/-! ## Writing a file -/

/-- `StorageWritePosix` (write.c 22-42), the fields that matter here. `dir` and `base` are the name. -/
structure Writer where
  dir : Path
  base : Str
  createPath : Bool
  atomic : Bool
  truncate : Bool
  syncPath : Bool
  syncFile : Bool
  deriving DecidableEq, Repr

/-- `.pgbackrest.tmp` (write.c 328, STORAGE_FILE_TEMP_EXT in src/storage/write.intern.h 14). -/
def tempExt : Str := [46, 112, 103, 98, 97, 99, 107, 114, 101, 115, 116, 46, 116, 109, 112]

/-- The name. -/
def Writer.name (w : Writer) : Path := w.base :: w.dir

/-- `nameTmp` (write.c 328). -/
def Writer.tmp (w : Writer) : Path := (if w.atomic then w.base ++ tempExt else w.base) :: w.dir

/-- The directories `storagePosixPathCreate` makes (storage.c 396-434): the ones that are missing, from the top. -/
def mkdirs (fs : Fs) : Path → List Sys
  | [] => []
  | c :: d => if fs.cur (c :: d) = .missing then mkdirs fs d ++ [.mkdir (c :: d)] else []

/-- The system calls of `storageWritePosixOpen` (write.c 85-159), `storageWritePosix` (164-183) for each buffer and
`storageWritePosixClose` (210-256). -/
def writeOps (w : Writer) (fs : Fs) (bufs : List Str) : List Sys :=
  (if w.createPath then mkdirs fs w.dir else []) ++ ([.openWrite w.tmp w.truncate] ++ (bufs.map .write ++
    ((if w.syncFile then [.fsync] else []) ++ ([.close] ++ ((if w.atomic then [.rename w.tmp w.name] else []) ++
      (if w.syncPath then [.syncDir w.dir] else []))))))

/-! ## Sequences -/

/-- A step of a program: the write of a file, or a system call that may be ignored when it fails because there is nothing to do. -/
inductive Step where
  /-- Open, write all buffers, close. -/
  | put (w : Writer) (bufs : List Str)
  /-- A system call that must succeed. -/
  | sys (op : Sys)
  /-- `unlink` of what may be missing (storage.c 551-573) -/
  | remove (p : Path)
  deriving DecidableEq, Repr

/-- The system calls of a step. -/
def stepOps (fs : Fs) : Step → List Sys
  | .put w bufs => writeOps w fs bufs
  | .sys op => [op]
  | .remove p => if fs.cur p = .missing then [] else [.unlink p]

/-- The states in which a program can be stopped. -/
inductive Run : Fs → List Step → Fs → Prop
  | stop (fs : Fs) (steps : List Step) : Run fs steps fs
  | here {fs fs' : Fs} {s : Step} (steps : List Step) : Reach fs (stepOps fs s) fs' → Run fs (s :: steps) fs'
  | next {fs fs1 fs' : Fs} {s : Step} {steps : List Step} : done fs (stepOps fs s) = some fs1 → Run fs1 steps fs' → Run fs (s :: steps) fs'

/-- The state when a program is done. -/
def finish (fs : Fs) : List Step → Option Fs
  | [] => some fs
  | s :: steps => (done fs (stepOps fs s)).bind fun fs1 => finish fs1 steps

end Verif.Fs
