import Verif.Storage.ItrModel

/-!
# Listing an object store in pages and by time

Model of the loops of `storageS3ListInternal` (src/storage/s3/storage.c 748-973), `storageAzureListInternal`
(src/storage/azure/storage.c 452-665) and `storageGcsListInternal` (src/storage/gcs/storage.c 627-838) over what the store answers.

What is simplified. The answers are given: a list of pages, each with common prefixes and files (for S3 with `versions` the Version and
DeleteMarker elements as they come). Names are those below the path (PrefixModel.lean says how they are made). Errors in the answers
are not modelled. The level is basic or more. Times are whole seconds. A target time of zero is none.
-/

namespace Verif.Storage

/-- A file or a version of it, as the store answers. -/
structure Ver where
  name : Name
  time : Nat
  size : Nat
  id : Nat
  /-- A delete marker; S3 only. -/
  del : Bool
  deriving DecidableEq, Repr

/-- What the callback gets for a file. The version is none when not targeting by time. -/
structure FileInfo where
  name : Name
  time : Nat
  size : Nat
  id : Option Nat
  deriving DecidableEq, Repr

/-- What the callback gets. -/
inductive Out where
  | path (name : Name)
  | file (info : FileInfo)
  deriving DecidableEq, Repr

/-- `infoLast` with `nameLast` and `versionIdLast` (s3/storage.c 806-812). -/
structure Last where
  exists_ : Bool
  name : Name
  time : Nat
  size : Nat
  id : Option Nat
  deriving DecidableEq, Repr

/-- The loop state: the last info and what the callback got. -/
structure ObjSt where
  last : Last
  out : List Out
  deriving DecidableEq, Repr

def Last.info (l : Last) : FileInfo := ⟨l.name, l.time, l.size, l.id⟩

/-- Return info for last file if new file (s3/storage.c 908-913, azure/storage.c 605-610, gcs/storage.c 793-798). -/
def flush (s : ObjSt) (name : Name) : ObjSt :=
  if s.last.exists_ && s.last.name != name then
    { last := { s.last with exists_ := false }, out := s.out ++ [.file s.last.info] }
  else s

/-- One file of S3 (s3/storage.c 898-961). -/
def s3File (target : Option Nat) (s : ObjSt) (f : Ver) : ObjSt :=
  let s := flush s f.name
  match target with
  | none => { s with last := { s.last with name := f.name, exists_ := true, time := f.time, size := f.size } }
  | some t =>
    let s := { s with last := { s.last with time := f.time } }
    if f.time > t then s
    else if s.last.name = f.name then s
    else if f.del then { s with last := { s.last with name := f.name, exists_ := false } }
    else { s with last := { s.last with name := f.name, exists_ := true, id := some f.id, size := f.size } }

/-- One file of Azure (azure/storage.c 593-652). -/
def azureFile (target : Option Nat) (s : ObjSt) (f : Ver) : ObjSt :=
  let s := flush s f.name
  match target with
  | none => { s with last := { s.last with name := f.name, exists_ := true, size := f.size, time := f.time } }
  | some t =>
    let s := { s with last := { s.last with time := f.time } }
    if f.time > t then s
    else { s with last := { s.last with name := f.name, exists_ := true, size := f.size, id := some f.id } }

/-- One file of GCS (gcs/storage.c 780-824, 613-624). -/
def gcsFile (target : Option Nat) (s : ObjSt) (f : Ver) : ObjSt :=
  let s := flush s f.name
  match target with
  | none => { s with last := { s.last with name := f.name, exists_ := true, size := f.size, time := f.time } }
  | some t =>
    let s := { s with last := { s.last with time := f.time } }
    if f.time > t then s
    else { s with last := { s.last with name := f.name, exists_ := true, size := f.size, time := f.time, id := some f.id } }

structure Page where
  paths : List Name
  files : List Ver

/-- One page: the paths, then the files (s3/storage.c 854-962). -/
def page (file : ObjSt → Ver → ObjSt) (s : ObjSt) (p : Page) : ObjSt :=
  p.files.foldl file { s with out := s.out ++ p.paths.map .path }

/-- All pages, and the last info if it exists (s3/storage.c 818-968). -/
def listPages (file : ObjSt → Ver → ObjSt) (pages : List Page) : List Out :=
  let s := pages.foldl (page file) ⟨⟨false, [], 0, 0, none⟩, []⟩
  if s.last.exists_ then s.out ++ [.file s.last.info] else s.out

end Verif.Storage
