import Verif.Basic

/-!
# Lock files

Model of `lockAcquire`, `lockRelease` and `lockRead` (src/common/lock.c 165-465) as system calls of many processes interleaved over
one lock file.

The file system holds at most one inode at the path of the lock file. Each inode has the process whose descriptor holds its
`flock` and the exec id stored in it. A process is at one of a few points between its system calls. One action is one system call
of one process.

Simplifications: the storage path exists (the `ENOENT` retry of lock.c 200-204 is not modelled), a write of the lock data is one
action, system calls fail only where the text says so, and one process works on one lock file.
-/

namespace Verif.Lock

/-- Where a process stands. The argument is the inode its descriptor refers to. -/
inductive Pc where
  /-- Not working on the lock file. -/
  | idle
  /-- `lockAcquire` after `open` (lock.c 194), before `flock` (lock.c 209). -/
  | opened (i : Nat)
  /-- `lockAcquire` after `flock` failed (lock.c 212), before the exec id is compared (lock.c 236). -/
  | busy (i : Nat)
  /-- `lockAcquire` after `flock` succeeded, before the lock data are written (lock.c 281). -/
  | locked (i : Nat)
  /-- The lock is in the lock list with a descriptor (lock.c 275) and the data are written. -/
  | held (i : Nat)
  /-- The lock is in the lock list as `LOCK_ON_EXEC_ID` (lock.c 237, 275). -/
  | shared
  /-- `lockRelease` after the file was removed (lock.c 452), before `close` (lock.c 453). -/
  | removed (i : Nat)
  /-- `lockRead` after `open` (lock.c 315). -/
  | rOpened (i : Nat)
  /-- `lockRead` after `flock` (lock.c 322), whatever its result. -/
  | rRead (i : Nat)
  /-- `lockRead` after `unlink` (lock.c 346), before `close` (lock.c 349). -/
  | rRemoved (i : Nat)
  /-- The process ended. -/
  | dead
  deriving DecidableEq, Repr

/-- Processes and file system. -/
structure St where
  /-- The inode at the path of the lock file. -/
  file : Option Nat
  /-- The next inode the file system gives out. -/
  fresh : Nat
  /-- The process whose descriptor holds the `flock` of an inode. -/
  holder : Nat → Option Nat
  /-- The exec id stored in an inode (lock.c 376). -/
  content : Nat → Option Nat
  /-- Where each process stands. -/
  pc : Nat → Pc

/-- One system call of one process. -/
inductive Act where
  | openFile (p : Nat)
  | flock (p : Nat)
  | compare (p : Nat)
  | write (p : Nat)
  | unlink (p : Nat)
  | close (p : Nat)
  | rOpen (p : Nat)
  | rFlock (p : Nat)
  | rUnlink (p : Nat)
  | rClose (p : Nat)
  | crash (p : Nat)
  deriving DecidableEq, Repr

/-- Replace the value of a function at one point. -/
def upd {α : Type} (f : Nat → α) (k : Nat) (v : α) : Nat → α := fun n => if n = k then v else f n

/-- Nothing exists. -/
def init : St :=
  { file := none
    fresh := 0
    holder := fun _ => none
    content := fun _ => none
    pc := fun _ => .idle }

/-- The kernel drops the `flock` of a process on an inode when its descriptor is closed. -/
def drop (st : St) (p i : Nat) : Nat → Option Nat :=
  if st.holder i = some p then upd st.holder i none else st.holder

/-- `lockAcquire`: `open(path, O_RDWR | O_CREAT)` (lock.c 194). The inode at the path, or a new one. -/
def stepOpen (st : St) (p : Nat) : Option St :=
  match st.pc p with
  | .idle =>
    match st.file with
    | some i => some { st with pc := upd st.pc p (.opened i) }
    | none =>
      some { st with
        file := some st.fresh
        fresh := st.fresh + 1
        pc := upd st.pc p (.opened st.fresh) }
  | _ => none

/-- `lockAcquire`: `flock(fd, LOCK_EX | LOCK_NB)` (lock.c 209). The inode of the descriptor is what is locked, whether or not it
is still the one at the path. -/
def stepFlock (st : St) (p : Nat) : Option St :=
  match st.pc p with
  | .opened i =>
    match st.holder i with
    | none => some { st with
        holder := upd st.holder i (some p)
        pc := upd st.pc p (.locked i) }
    | some _ => some { st with pc := upd st.pc p (.busy i) }
  | _ => none

/-- `lockAcquire`: read the exec id through the descriptor, close it, and take the lock as `LOCK_ON_EXEC_ID` when the exec id is
our own (lock.c 215-239). -/
def stepCompare (exec : Nat → Nat) (st : St) (p : Nat) : Option St :=
  match st.pc p with
  | .busy i =>
    if st.content i = some (exec p) then some { st with pc := upd st.pc p .shared }
    else some { st with pc := upd st.pc p .idle }
  | _ => none

/-- `lockAcquire`: `lockWriteP` (lock.c 281), and later writes (`cmdLockWrite`, command/lock.c 148-163). -/
def stepWrite (exec : Nat → Nat) (st : St) (p : Nat) : Option St :=
  match st.pc p with
  | .locked i => some { st with
      content := upd st.content i (some (exec p))
      pc := upd st.pc p (.held i) }
  | .held i => some { st with content := upd st.content i (some (exec p)) }
  | _ => none

/-- `lockRelease`: remove the file at the path (lock.c 450-452). A lock taken by exec id is only forgotten. -/
def stepUnlink (st : St) (p : Nat) : Option St :=
  match st.pc p with
  | .held i => some { st with
      file := none
      pc := upd st.pc p (.removed i) }
  | .shared => some { st with pc := upd st.pc p .idle }
  | _ => none

/-- `lockRelease`: close the descriptor (lock.c 453). -/
def stepClose (st : St) (p : Nat) : Option St :=
  match st.pc p with
  | .removed i => some { st with
      holder := drop st p i
      pc := upd st.pc p .idle }
  | _ => none

/-- `lockRead`: `open(path, O_RDONLY)` (lock.c 315). Without a file the call returns. -/
def stepROpen (st : St) (p : Nat) : Option St :=
  match st.pc p with
  | .idle =>
    match st.file with
    | some i => some { st with pc := upd st.pc p (.rOpened i) }
    | none => some st
  | _ => none

/-- `lockRead`: `flock(fd, LOCK_EX | LOCK_NB)` (lock.c 322). -/
def stepRFlock (st : St) (p : Nat) : Option St :=
  match st.pc p with
  | .rOpened i =>
    match st.holder i with
    | none => some { st with
        holder := upd st.holder i (some p)
        pc := upd st.pc p (.rRead i) }
    | some _ => some { st with pc := upd st.pc p (.rRead i) }
  | _ => none

/-- `lockRead` with `remove`: `unlink(path)` (lock.c 345-346), whatever the result of `flock` was. -/
def stepRUnlink (st : St) (p : Nat) : Option St :=
  match st.pc p with
  | .rRead i => some { st with
      file := none
      pc := upd st.pc p (.rRemoved i) }
  | _ => none

/-- `lockRead`: `close(fd)` (lock.c 349). -/
def stepRClose (st : St) (p : Nat) : Option St :=
  match st.pc p with
  | .rRead i => some { st with
      holder := drop st p i
      pc := upd st.pc p .idle }
  | .rRemoved i => some { st with
      holder := drop st p i
      pc := upd st.pc p .idle }
  | _ => none

/-- A process ends without cleaning up. The kernel closes its descriptors; the file stays. -/
def stepCrash (st : St) (p : Nat) : Option St :=
  some { st with
    holder := fun i => if st.holder i = some p then none else st.holder i
    pc := upd st.pc p .dead }

/-- One action. -/
def step (exec : Nat → Nat) (st : St) : Act → Option St
  | .openFile p => stepOpen st p
  | .flock p => stepFlock st p
  | .compare p => stepCompare exec st p
  | .write p => stepWrite exec st p
  | .unlink p => stepUnlink st p
  | .close p => stepClose st p
  | .rOpen p => stepROpen st p
  | .rFlock p => stepRFlock st p
  | .rUnlink p => stepRUnlink st p
  | .rClose p => stepRClose st p
  | .crash p => stepCrash st p

/-- A sequence of actions of any processes. -/
def run (exec : Nat → Nat) : St → List Act → Option St
  | st, [] => some st
  | st, a :: rest =>
    match step exec st a with
    | none => none
    | some st' => run exec st' rest

end Verif.Lock
