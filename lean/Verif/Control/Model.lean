import Verif.Basic
import Verif.Common.Str
import Verif.Lock.CmdModel

/-!
# Stop and start

Model of `cmdStop` (src/command/control/stop.c 24-99), `cmdStart` (src/command/control/start.c 14-40), `lockStopFileName` and
`lockStopTest` (src/command/control/common.c 13-45).

The lock path holds stop files and lock files, by name. What `lockRead` finds in a lock file is given; each `lockRead` with `remove`
takes the file away (src/common/lock.c 345-346, Verif.Lock.Model). Errors of the storage are not modelled.
-/

namespace Verif.Control

open Verif.Lock (lockExt)

/-- `STOP_FILE_EXT`: ".stop". -/
def stopExt : Str := [46, 115, 116, 111, 112]

/-- "all". -/
def allName : Str := [97, 108, 108]

/-- `lockStopFileName` (common.c 13-21), relative to the lock path. -/
def stopFileName : Option Str → Str
  | some stanza => stanza ++ stopExt
  | none => allName ++ stopExt

/-- What `lockRead` reports for a lock file: the process id of a valid lock, or another status (missing, invalid, unlocked). -/
inductive ReadResult where
  | valid (pid : Nat)
  | other
  deriving DecidableEq, Repr

/-- The lock path. -/
structure Dir where
  /-- The names of the files other than lock files. -/
  files : List Str
  /-- The lock files and what `lockRead` reports for them. -/
  locks : List (Str × ReadResult)
  deriving DecidableEq, Repr

/-- `lockStopTest` (common.c 24-45). -/
def lockStopTest (d : Dir) (stanza : Option Str) : Res Unit :=
  match stanza with
  | some s =>
    if stopFileName (some s) ∈ d.files then .error .stop
    else if stopFileName none ∈ d.files then .error .stop
    else .ok ()
  | none => if stopFileName none ∈ d.files then .error .stop else .ok ()

/-- `cmdStart` (start.c 14-40). -/
def cmdStart (d : Dir) (stanza : Option Str) : Dir :=
  if stopFileName stanza ∈ d.files then { d with files := d.files.filter (· ≠ stopFileName stanza) } else d

/-- `strBeginsWith`. -/
def beginsWith (s begin : Str) : Bool := s.take begin.length == begin

/-- `strEndsWithZ`. -/
def endsWith (s suffix : Str) : Bool := s.drop (s.length - suffix.length) == suffix && suffix.length ≤ s.length

/-- The files `stop --force` looks at (stop.c 49-50, 60-62). -/
def selected (stanza : Option Str) (name : Str) : Bool :=
  endsWith name lockExt &&
    match stanza with
    | some s => beginsWith name (s ++ [45])
    | none => true

/-- The loop of `stop --force` (stop.c 55-86). `pids` is `pidList`. Returns the process ids that are sent `SIGTERM`, in order, and
the lock files that stay. -/
def forceLoop (stanza : Option Str) : List (Str × ReadResult) → List Nat → List Nat × List (Str × ReadResult)
  | [], _ => ([], [])
  | (name, r) :: rest, pids =>
    if selected stanza name then
      match r with
      | .other => forceLoop stanza rest pids
      | .valid pid =>
        if pid ∈ pids then forceLoop stanza rest pids
        else
          let (sent, kept) := forceLoop stanza rest (pids ++ [pid])
          (pid :: sent, kept)
    else
      let (sent, kept) := forceLoop stanza rest pids
      (sent, (name, r) :: kept)

/-- `cmdStop` (stop.c 24-99). Returns the lock path and the process ids that are sent `SIGTERM`. The lock files are sorted by name;
the order changes only the order of the signals. -/
def cmdStop (d : Dir) (stanza : Option Str) (force : Bool) : Dir × List Nat :=
  if stopFileName stanza ∈ d.files then (d, [])
  else
    let files := d.files ++ [stopFileName stanza]
    if force then
      let (sent, kept) := forceLoop stanza d.locks []
      ({ files := files
         locks := kept }, sent)
    else ({ d with files := files }, [])

end Verif.Control
