import Verif.Fs.Model

/-!
# Loading and saving information files

`infoLoad` (src/info/info.c), the callbacks for `backup.info` and `archive.info` (src/info/infoBackup.c, src/info/infoArchive.c) and for
manifests (src/info/manifest/serialize.c.inc), and saving both files.
-/

namespace Verif.Info.Load

open Verif.Fs

/-- The error that is kept (info.c 464-481). -/
def keep (old : Option Err) (e : Err) : Err :=
  match old with
  | none => e
  | some o => if o ≠ e then (if o = .fileMissing then e else if e ≠ .fileMissing then .fileOpen else o) else o

/-- `infoLoad` (info.c 431-500). The callback gives what was loaded, nothing when all files were tried, or an error. `fuel` limits the number
of attempts; without it nothing is known. -/
def infoLoad {α : Type} (cb : Nat → Res (Option α)) : Nat → Nat → Option Err → Option (Res α)
  | 0, _, _ => none
  | fuel + 1, try_, err =>
    match cb try_ with
    | .ok (some x) => some (.ok x)
    | .ok none => if try_ > 0 then some (.error (err.getD .assert)) else some (.error (keep err .assert))
    | .error e => infoLoad cb fuel (try_ + 1) (some (keep err e))

/-- `infoBackupLoadFileCallback` (infoBackup.c 675-715), `infoArchiveLoadFileCallback` (infoArchive.c 215-251) and
`manifestLoadFileCallback` (serialize.c.inc 1020-1055): the file, then the copy, then nothing. -/
def callback {α : Type} (main copy : Res α) (try_ : Nat) : Res (Option α) :=
  if try_ < 2 then (if try_ = 0 then main else copy).map some else .ok none

/-- `infoBackupLoadFile`, `infoArchiveLoadFile`, `manifestLoadFile`: load the file or the copy. The loop ends in at most three attempts
(see `c41_ends`). -/
def loadFile {α : Type} (main copy : Res α) : Res α := (infoLoad (callback main copy) 3 0 none).getD (.error .ub)

/-- What is read from a storage: the content is decrypted, parsed and verified by `parse`. -/
def readFile {α : Type} (parse : Str → Res α) : Found → Res α
  | .file x => parse x
  | .missing => .error .fileMissing
  | _ => .error .fileOpen

/-- `.copy` (INFO_COPY_EXT, info.h 21). -/
def copyExt : Str := [46, 99, 111, 112, 121]

/-- A write with the defaults of `storageNewWriteP` (src/storage/storage.c 556-594). -/
def writer (dir : Path) (base : Str) : Writer := ⟨dir, base, true, true, true, true, true⟩

/-- `infoBackupSaveFile` (infoBackup.c 901-937) and `infoArchiveSaveFile` (infoArchive.c 304-335): the same content is written to the file
and to the copy. -/
def saveFile (dir : Path) (base : Str) (content : Str) : List Step :=
  [.put (writer dir base) [content], .put (writer dir (base ++ copyExt)) [content]]

end Verif.Info.Load
