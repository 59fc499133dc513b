import Verif.Info.LoadModel

/-!
# Completing a backup

`backupComplete` (src/command/backup/complete.c.inc 171-243) on the file system of `Verif.Fs.Model`, for a repository on a posix storage (path
sync and symbolic links are supported).
-/

namespace Verif.Backup.Complete

open Verif.Fs Verif.Info.Load

/-- `backup/STANZA` (STORAGE_REPO_BACKUP). -/
def backupPath (root : Path) (stanza : Str) : Path := stanza :: [98, 97, 99, 107, 117, 112] :: root

/-- `archive/STANZA` (STORAGE_REPO_ARCHIVE). -/
def archivePath (root : Path) (stanza : Str) : Path := stanza :: [97, 114, 99, 104, 105, 118, 101] :: root

/-- `backup.manifest` (BACKUP_MANIFEST_FILE, src/info/manifest/manifest.h 25). -/
def manifestName : Str := [98, 97, 99, 107, 117, 112, 46, 109, 97, 110, 105, 102, 101, 115, 116]

/-- `backup.history` (BACKUP_PATH_HISTORY, src/command/backup/common.h 17). -/
def historyName : Str := [98, 97, 99, 107, 117, 112, 46, 104, 105, 115, 116, 111, 114, 121]

/-- `.manifest.gz` -/
def historyExt : Str := [46, 109, 97, 110, 105, 102, 101, 115, 116, 46, 103, 122]

/-- `latest` (BACKUP_LINK_LATEST, src/command/backup/common.c 16). -/
def latestName : Str := [108, 97, 116, 101, 115, 116]

/-- `backup.info` (INFO_BACKUP_FILE, src/info/infoBackup.h 23). -/
def backupInfo : Str := [98, 97, 99, 107, 117, 112, 46, 105, 110, 102, 111]

/-- `archive.info` (INFO_ARCHIVE_FILE, src/info/infoArchive.h 19). -/
def archiveInfo : Str := [97, 114, 99, 104, 105, 118, 101, 46, 105, 110, 102, 111]

/-- What is written: the manifest, its compressed version for the history, `backup.info` with the backup added, and `archive.info`. The
content is abstract here. -/
structure Content where
  manifest : Str
  history : Str
  info : Str
  archive : Str

/-- `backupLinkLatest` (common.c 145-173). -/
def linkLatest (B : Path) (label : Str) : List Step :=
  [.remove (latestName :: B), .sys (.symlink (latestName :: B) label), .sys (.syncDir B)]

/-- The first part of `backupComplete` (complete.c.inc 185-227): `backup.manifest.copy`, `backup.manifest`, the history, the link. -/
def before (B : Path) (label : Str) (c : Content) : List Step :=
  [.put (writer (label :: B) (manifestName ++ copyExt)) [c.manifest],
   .put (writer (label :: B) manifestName) [c.manifest],
   .put (writer (label.take 4 :: historyName :: B) (label ++ historyExt)) [c.history],
   .sys (.syncDir (historyName :: B))] ++ linkLatest B label

/-- `backupComplete` (complete.c.inc 171-243): after the first part `backup.info` and its copy, then `archive.info` and its copy. -/
def complete (root : Path) (stanza label : Str) (c : Content) : List Step :=
  before (backupPath root stanza) label c ++
    (saveFile (backupPath root stanza) backupInfo c.info ++ saveFile (archivePath root stanza) archiveInfo c.archive)

end Verif.Backup.Complete
