import Verif.Archive.PushModel

/-! # Model of getting files from the archive

src/command/archive/get/get.c and src/command/archive/get/file.c. What the storage returns does not change during the command, so the
cache of listings (lines 171-191) is not seen. Warnings are only modelled where a file is skipped. -/

namespace Verif.Archive

/-- An entry of the history in archive.info, newest first, with its archive id (`infoPgArchiveId`). -/
structure PgHist where
  systemId : Nat
  version : Nat
  archiveId : Str
deriving DecidableEq

/-- What the storage of a repository returns. -/
structure GetRepo where
  /-- The history in archive.info. -/
  info : Res (List PgHist)
  /-- Names in the archive path. -/
  paths : Res (List Str)
  /-- Names in a path of an archive id. -/
  list : Str → Str → Res (List Str)
  /-- A file exists in an archive id. -/
  has : Str → Str → Res Bool
  /-- Content of a file, decrypted and decompressed, by path. -/
  read : Str → Res Bytes

/-- `ArchiveGetFile`, src/command/archive/get/file.h:15-21. -/
structure Match where
  file : Str
  repo : Nat
  archiveId : Str
deriving DecidableEq

/-- `%s/%s`. -/
def slash (a b : Str) : Str := a ++ [0x2f] ++ b

/-- The loop over the history, lines 426-465. The path of an id that is not the newest must exist. -/
def idsFrom (r : GetRepo) (systemId version : Nat) : (pgIdx : Nat) → List PgHist → Res (List Str)
  | _, [] => .ok []
  | pgIdx, h :: hist =>
    if h.systemId = systemId ∧ h.version = version then
      if pgIdx ≠ 0 then
        match r.paths with
        | .error e => .error e
        | .ok paths =>
          (idsFrom r systemId version (pgIdx + 1) hist).map fun ids => if paths.contains h.archiveId then h.archiveId :: ids else ids
      else (idsFrom r systemId version (pgIdx + 1) hist).map (h.archiveId :: ·)
    else idsFrom r systemId version (pgIdx + 1) hist

/-- The archive ids of a repository, or why it is not used, lines 400-485. -/
def repoIds (systemId version : Nat) (r : GetRepo) : Res (List Str) :=
  match r.info with
  | .error e => .error e
  | .ok hist =>
    match idsFrom r systemId version 0 hist with
    | .error e => .error e
    | .ok [] => .error .archiveMismatch
    | .ok ids => .ok ids

/-- The repositories to search with their index and archive ids, lines 391-486. -/
def usable (systemId version : Nat) : (idx : Nat) → List GetRepo → List (Nat × GetRepo × List Str)
  | _, [] => []
  | idx, r :: repos =>
    match repoIds systemId version r with
    | .ok ids => (idx, r, ids) :: usable systemId version (idx + 1) repos
    | .error _ => usable systemId version (idx + 1) repos

/-- The expression for all segments of a path, lines 184-185. -/
def matchPath (path name : Str) : Bool :=
  name.take 16 == path && ((name.drop 16).take 8).length == 8 && ((name.drop 16).take 8).all Wal.rangeChar && matchRest (name.drop 24)

/-- The names of the requested segment in a listing, lines 155-201. Requests for more than one file are never partial. -/
def segmentNames (single : Bool) (seg : Str) (names : List Str) : List Str :=
  if single then names.filter (matchFile seg)
  else (names.filter (matchPath (seg.take 16))).filter fun n => seg.isPrefixOf n

/-- The matches in an archive id, lines 150-242. -/
def idMatches (single : Bool) (request : Str) (idx : Nat) (r : GetRepo) (id : Str) : Res (List Match) :=
  if Wal.isSegment request then
    (r.list id (request.take 16)).map fun names =>
      (segmentNames single request names).map fun n => ⟨slash (slash id (request.take 16)) n, idx, id⟩
  else
    (r.has id request).map fun has => if has then [⟨slash id request, idx, id⟩] else []

/-- The matches in a repository and if there was an error, lines 143-252: matches before the error are kept. -/
def repoMatches (single : Bool) (request : Str) (idx : Nat) (r : GetRepo) : List Str → List Match × Bool
  | [] => ([], false)
  | id :: ids =>
    match idMatches single request idx r id with
    | .error _ => ([], true)
    | .ok ms =>
      let rest := repoMatches single request idx r ids
      (ms ++ rest.1, rest.2)

/-- `strSubN(file, 25, 40)` of line 283. It is past the end of no file: each is longer than 65. -/
def hashPart (file : Str) : Str := (file.drop 25).take 40

/-- Result for a file. -/
inductive Found where
  | files (l : List Match)
  | missing
  | error (e : Err)
deriving DecidableEq

/-- `archiveGetFind`, lines 103-359. -/
def getFind (single : Bool) (request : Str) (repos : List (Nat × GetRepo × List Str)) : Found :=
  let results := repos.map fun p => repoMatches single request p.1 p.2.1 p.2.2
  if results.countP (fun x => x.2) = repos.length then .error .repoInvalid
  else
    let l := results.flatMap Prod.fst
    if l = [] then .missing
    else if Wal.isSegment request = true ∧ (l.map fun m => hashPart m.file).eraseDups.length > 1 then .error .archiveDuplicate
    else .files l

/-- What `archiveGetCheck` finds out about `pg_control`. -/
structure Control where
  systemId : Nat
  version : Nat
  /-- The checkpoint is the invalid one that restore writes, lines 383-389. -/
  checkpointInvalid : Bool
  backupLabel : Bool

/-- Files found and the error that ended the search, `ArchiveGetCheckResult`. -/
structure Checked where
  maps : List (Str × List Match)
  error : Option (Err × Option Str)

/-- Lines 512-520. -/
def findAll (single : Bool) (repos : List (Nat × GetRepo × List Str)) : List Str → Checked
  | [] => ⟨[], none⟩
  | request :: rest =>
    match getFind single request repos with
    | .files l =>
      let c := findAll single repos rest
      { c with maps := (request, l) :: c.maps }
    | .missing => ⟨[], none⟩
    | .error e => ⟨[], some (e, some request)⟩

/-- `archiveGetCheck`, lines 362-529. -/
def getCheck (control : Res Control) (repos : List GetRepo) (requests : List Str) : Res Checked :=
  match control with
  | .error e => .error e
  | .ok c =>
    if c.checkpointInvalid && !c.backupLabel then .error .format
    else
      match usable c.systemId c.version 0 repos with
      | [] => .ok ⟨[], some (.repoInvalid, none)⟩
      | us => .ok (findAll (requests.length == 1) us requests)

/-- `archiveGetFile`, src/command/archive/get/file.c:20-109: the match that was copied, its content, and the errors of the matches
before it. -/
def getFile (read : Match → Res Bytes) : List Match → (warn : List (Match × Err)) → Res (Match × Bytes × List (Match × Err))
  | [], _ => .error .fileRead
  | m :: rest, warn =>
    match read m with
    | .ok data => .ok (m, data, warn)
    | .error e => getFile read rest (warn ++ [(m, e)])

/-- Content of a match. -/
def readMatch (repos : List GetRepo) (m : Match) : Res Bytes :=
  match repos[m.repo]? with
  | some r => r.read m.file
  | none => .error .ub

/-- `archiveGetSingle`, lines 612-668. -/
def getSingle (control : Res Control) (repos : List GetRepo) (request : Str) : Res (Option (Match × Bytes × List (Match × Err))) :=
  match getCheck control repos [request] with
  | .error e => .error e
  | .ok c =>
    match c.error with
    | some (e, _) => .error e
    | none =>
      match c.maps with
      | [] => .ok none
      | (_, l) :: _ => (getFile (readMatch repos) l []).map some

end Verif.Archive
