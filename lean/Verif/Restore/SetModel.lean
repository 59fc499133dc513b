import Verif.Wal.Model
import Verif.Common.Str

/-! # Model of the selection of the backup set, `restoreBackupSet`, src/command/restore/select.c.inc:16-227

The target is parsed beforehand (`cvtZToTime` is C05, `pgLsnFromStr` is C04). A repository is given with its index; when the option
`repo` is set there is only one. Warnings are not modelled. -/

namespace Verif.Restore

open Wal

/-- The parts used of `InfoBackupData`, src/info/infoBackup.h. -/
structure SetBackup where
  label : Str
  stop : Int
  lsnStop : Option Str
  pgId : Nat
  deriving DecidableEq

/-- A loaded backup.info: backups, oldest first, and the current database id. -/
structure SetRepo where
  backups : List SetBackup
  pgId : Nat
  deriving DecidableEq

/-- The recovery target: time, lsn or any other type, select.c.inc:60-89. -/
inductive Target' where
  | time (t : Int)
  | lsn (l : Nat)
  | other
  deriving DecidableEq

/-- The search in one repository for a target, newest backup first, select.c.inc:135-162. -/
def searchRepo (target : Target') : List SetBackup → Res (Option Str)
  | [] => .ok none
  | b :: bs =>
    match target with
    | .other => .ok none
    | .time t => if b.stop < t then .ok (some b.label) else searchRepo target bs
    | .lsn l =>
      match b.lsnStop with
      | none => .ok none
      | some s =>
        match lsnFromStr s with
        | .error e => .error e
        | .ok v => if v ≤ l then .ok (some b.label) else searchRepo target bs

/-- What a repository gives: a backup label, nothing, or an error. Select.c.inc:112-205; `none` for `info` is a repository whose
backup.info could not be loaded. -/
def selectIn (target : Target') (set : Option Str) (info : Option SetRepo) : Res (Option Str) :=
  match info with
  | none => .ok none
  | some r =>
    match r.backups.reverse with
    | [] => .ok none
    | latest :: older =>
      match set with
      | some s => if r.backups.any (fun b => b.label == s) then .ok (some s) else .ok none
      | none =>
        match target with
        | .other => if latest.pgId < r.pgId then .error .backupSetInvalid else .ok (some latest.label)
        | _ => searchRepo target (latest :: older)

/-- `restoreBackupSet`, select.c.inc:93-222. -/
def backupSet (target : Target') (set : Option Str) : List (Nat × Option SetRepo) → Res (Nat × Str)
  | [] => .error .backupSetInvalid
  | (i, info) :: repos =>
    match selectIn target set info with
    | .error e => .error e
    | .ok (some label) => .ok (i, label)
    | .ok none => backupSet target set repos

end Verif.Restore
