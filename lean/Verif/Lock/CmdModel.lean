import Verif.Basic
import Verif.Common.Str
import Verif.Num.Model

/-!
# Locks of a command

Model of `cmdLockList`, `cmdLockAcquire` and `cmdLockRelease` (src/command/lock.c 30-113, 198-218) over the outcome of `lockAcquire`
for each lock file (src/common/lock.c 165-290). What `lockAcquire` does on one file among other processes is in Verif.Lock.Model; here
the state of each file stays the same while the command asks for its locks.
-/

namespace Verif.Lock

open Verif.Num (uintToZ)

/-- `lockTypeName` (command/lock.c 22-27). -/
inductive LockType where
  | archive | backup | restore
  deriving DecidableEq, Repr

/-- "archive", "backup", "restore". -/
def LockType.name : LockType → Str
  | .archive => [97, 114, 99, 104, 105, 118, 101]
  | .backup => [98, 97, 99, 107, 117, 112]
  | .restore => [114, 101, 115, 116, 111, 114, 101]

/-- `LOCK_FILE_EXT` (common/lock.h): ".lock". -/
def lockExt : Str := [46, 108, 111, 99, 107]

/-- `cmdLockFileName` (command/lock.c 32-46): "%s-%s-%u.lock". -/
def fileName (stanza : Str) (type : LockType) (repoKey : Nat) : Str :=
  stanza ++ 45 :: (type.name ++ 45 :: (uintToZ repoKey ++ lockExt))

/-- The lock types from `lockMin` to `lockMax` (command/lock.c 60-62). `none` is `lockTypeAll`. -/
def lockTypes : Option LockType → List LockType
  | some t => [t]
  | none => [.archive, .backup, .restore]

/-- `cmdLockList` (command/lock.c 49-80). `keys` are the keys of the repositories in index order, `repo` is the index chosen with
the `repo` option. -/
def lockList (stanza : Str) (type : Option LockType) (keys : List Nat) (repo : Option Nat) : List Str :=
  let chosen := match repo with
    | some i => (keys.drop i).take 1
    | none => keys
  (lockTypes type).flatMap fun t => chosen.map fun k => fileName stanza t k

/-- What a process finds at a lock file. -/
inductive File where
  /-- `flock` succeeds. -/
  | free
  /-- `flock` fails and the file has our own exec id. -/
  | family
  /-- `flock` fails with `EWOULDBLOCK`. -/
  | busy
  /-- `open` or `flock` fails otherwise, e.g. with `EACCES`. -/
  | denied
  deriving DecidableEq, Repr

/-- The lock state of this process: `lockLocal.lockList` as names with `fd == LOCK_ON_EXEC_ID` (common/lock.c), and
`cmdLockLocal.held`. -/
structure Own where
  locks : List (Str × Bool)
  held : Bool
  deriving DecidableEq, Repr

/-- `lockAcquire` (common/lock.c 165-290) on one file. `ret` is `param.returnOnNoLock`. Writing the lock data does not fail. -/
def lockAcquire (env : Str → File) (ret : Bool) (o : Own) (name : Str) : Res Bool × Own :=
  if o.locks.any (fun l => l.1 == name) then (.error .assert, o)
  else
    match env name with
    | .free => (.ok true, { o with locks := o.locks ++ [(name, false)] })
    | .family => (.ok true, { o with locks := o.locks ++ [(name, true)] })
    | .busy => if ret then (.ok false, o) else (.error .lockAcquire, o)
    | .denied => (.error .lockAcquire, o)

/-- The loop of `cmdLockAcquire` (command/lock.c 104-105): each result replaces the one before. -/
def acquireLoop (env : Str → File) (ret : Bool) : List Str → Bool → Own → Res Bool × Own
  | [], result, o => (.ok result, o)
  | name :: rest, _, o =>
    match lockAcquire env ret o name with
    | (.error e, o') => (.error e, o')
    | (.ok r, o') => acquireLoop env ret rest r o'

/-- `cmdLockAcquire` (command/lock.c 83-113). `held` is set after the loop, so that an error leaves it false. -/
def cmdLockAcquire (env : Str → File) (ret : Bool) (names : List Str) (o : Own) : Res Bool × Own :=
  if o.held then (.error .assert, o)
  else
    match acquireLoop env ret names true o with
    | (.error e, o') => (.error e, o')
    | (.ok r, o') => (.ok r, { o' with held := r })

/-- `lockRelease` (common/lock.c 423-465). -/
def lockRelease (ret : Bool) (o : Own) : Res Bool × Own :=
  if o.locks = [] then
    if ret then (.ok false, o) else (.error .assert, o)
  else (.ok true, { o with locks := [] })

/-- `cmdLockRelease` (command/lock.c 198-218). -/
def cmdLockRelease (ret : Bool) (o : Own) : Res Bool × Own :=
  if o.held then
    match lockRelease ret o with
    | (.error e, o') => (.error e, o')
    | (.ok r, o') => (.ok r, { o' with held := false })
  else if ret then (.ok true, o)
  else (.error .assert, o)

end Verif.Lock
