import Verif.Backup.CompleteModel

/-!
# The files of a backup on disk

The writes of `backupFile` (src/command/backup/file.c.inc) and the syncs of `backupProcess` (src/command/backup/process.c.inc), on the file
system of `Verif.Fs.Model`. The workers write different files; here they are written one after another. The directories made first for some
backups (process.c.inc 831-863) and hard links are not modelled: they are part of the state at the beginning.
-/

namespace Verif.Backup.Durable

open Verif.Fs

/-- A file in the backup: the names of the directories below the backup from the last to the first, its name and what is written. -/
structure File where
  dirs : Path
  base : Str
  bufs : List Str

/-- The write of `backupFile` (file.c.inc 475-485): `noAtomic` and `noSyncPath`. -/
def fileWriter (L : Path) (f : File) : Writer :=
  { dir := f.dirs ++ L, base := f.base, createPath := true, atomic := false, truncate := true, syncPath := false, syncFile := true }

/-- All files. -/
def putFiles (L : Path) (files : List File) : List Step := files.map fun f => .put (fileWriter L f) f.bufs

/-- The syncs at the end of `backupProcess` (process.c.inc 981-993): the paths of the manifest, when they are there or when they must be. -/
def syncPaths (always : Bool) (fs : Fs) (L : Path) (paths : List Path) : List Step :=
  (paths.filter fun p => always || fs.cur (p ++ L) == .dir).map fun p => .sys (.syncDir (p ++ L))

/-- `backupProcess` (process.c.inc 771-998), what it does on the disk of the repository. -/
def process (fs : Fs) (L : Path) (files : List File) (always : Bool) (paths : List Path) : Option Fs :=
  (finish fs (putFiles L files)).bind fun f1 => finish f1 (syncPaths always f1 L paths)

/-- `bundle` (MANIFEST_PATH_BUNDLE, src/info/manifest/manifest.h 22). -/
def bundleName : Str := [98, 117, 110, 100, 108, 101]

/-- The file of a bundle (`backupFileRepoPath`, src/command/backup/common.c 19-45): `LABEL/bundle/ID`. -/
def bundle (id : Str) (bufs : List Str) : File := ⟨[bundleName], id, bufs⟩

end Verif.Backup.Durable
