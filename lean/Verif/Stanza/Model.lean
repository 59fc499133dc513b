import Verif.Info.PgModel

/-!
# stanza-create and stanza-upgrade

Model of src/command/stanza/create.c and upgrade.c for one repository. A file is the history that is saved in it: C42 shows that loading gives
what was saved, C41 that a file is old or new after an interruption.
-/

namespace Verif.Stanza

open Verif.Info.Pg

/-- The four files. -/
inductive File
  | archive
  | archiveCopy
  | backup
  | backupCopy
  deriving DecidableEq, Repr

/-- The repository of a stanza. -/
abbrev Repo := File → Option Pg

/-- The version, the system id and the catalog version of the database: `pgValidate` (src/command/stanza/common.c). -/
abbrev Db := Nat × Nat × Nat

/-- A file that is written. -/
abbrev Write := File × Pg

/-- The repository after a file was written. -/
def put (r : Repo) (w : Write) : Repo := fun f => if f = w.1 then some w.2 else r f

/-- The repository after files were written. -/
def apply (r : Repo) (ws : List Write) : Repo := ws.foldl put r

/-- `infoArchiveLoadFile` and `infoBackupLoadFile`: the copy is loaded when the file is missing (src/info/infoArchive.c 233-302,
src/info/infoBackup.c, see C41). -/
def loadFile (r : Repo) (file copy : File) : Res Pg :=
  match r file with
  | some p => .ok p
  | none =>
    match r copy with
    | some p => .ok p
    | none => .error .fileMissing

/-- `infoArchiveSaveFile` (src/info/infoArchive.c 304-335). -/
def saveArchive (p : Pg) : List Write := [(.archive, p), (.archiveCopy, p)]

/-- `infoBackupSaveFile` (src/info/infoBackup.c 901-937), for information that was updated. -/
def saveBackup (p : Pg) : List Write := [(.backup, p), (.backupCopy, p)]

/-- `checkStanzaInfo` (src/command/check/common.c 97-122). -/
def checkInfo (a b : Data) : Res Unit :=
  if a.id ≠ b.id ∨ a.sys ≠ b.sys ∨ a.version ≠ b.version then .error .fileInvalid else .ok ()

/-- `checkStanzaInfoPg` (src/command/check/common.c 125-162). -/
def checkInfoPg (r : Repo) (db : Db) : Res Unit := do
  let a ← loadFile r .archive .archiveCopy
  let a ← data a a.current
  let b ← loadFile r .backup .backupCopy
  let b ← data b b.current
  checkInfo a b
  if db.1 ≠ a.version ∨ db.2.1 ≠ a.sys then .error .fileInvalid else .ok ()

/-- Copy a file to the one that is missing (create.c 106-115, 117-126). -/
def copyMissing (r : Repo) (file copy : File) : List Write :=
  match r file, r copy with
  | some p, none => [(copy, p)]
  | none, some p => [(file, p)]
  | _, _ => []

/-- The loop in `cmdStanzaCreate` (src/command/stanza/create.c 44-148): the files that are written, in order. `other` says that there are other
files in the directories. -/
def create (cv : Nat → Nat) (other : Bool) (r : Repo) (db : Db) : Res (List Write) := do
  let ax := (r .archive).isSome
  let ac := (r .archiveCopy).isSome
  let bx := (r .backup).isSome
  let bc := (r .backupCopy).isSome
  if !ax && !ac && !bx && !bc then
    if other then .error .pathNotEmpty
    else do
      let a ← set cv (new .archive) db.1 db.2.1 0
      let b ← set cv (new .backup) db.1 db.2.1 db.2.2
      .ok (saveArchive a ++ saveBackup b)
  else if (ax || ac) && (bx || bc) then do
    checkInfoPg r db
    .ok (copyMissing r .archive .archiveCopy ++ copyMissing r .backup .backupCopy)
  else .error .fileMissing

/-- The version or the system id is not the one of the entry (upgrade.c 63, 70). -/
def differs (db : Db) (d : Data) : Bool := db.1 ≠ d.version || db.2.1 ≠ d.sys

/-- A new entry when it is needed (upgrade.c 61-74). -/
def refresh (cv : Nat → Nat) (p : Pg) (d : Data) (db : Db) (catalog : Nat) : Res Pg :=
  if differs db d then set cv p db.1 db.2.1 catalog else .ok p

/-- The loop in `cmdStanzaUpgrade` (src/command/stanza/upgrade.c 41-96): the files that are written, in order. -/
def upgrade (cv : Nat → Nat) (r : Repo) (db : Db) : Res (List Write) := do
  let a ← loadFile r .archive .archiveCopy
  let da ← data a a.current
  let b ← loadFile r .backup .backupCopy
  let d ← data b b.current
  let a' ← refresh cv a da db 0
  let b' ← refresh cv b d db db.2.2
  checkInfo (← data a' a'.current) (← data b' b'.current)
  .ok ((if differs db da then saveArchive a' else []) ++ (if differs db d then saveBackup b' else []))

end Verif.Stanza
