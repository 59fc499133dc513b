import Verif.StrLst.AntiModel
import Verif.Num.Model
import Verif.Archive.PushModel

/-! # Model of the queue of asynchronous archive push

src/command/archive/push/push.c. A directory is the list of the names in it. -/

namespace Verif.Archive

open Verif.StrLst

/-- `STATUS_EXT_OK`, src/command/archive/common.h:32. -/
def okExt : Str := [0x2e, 0x6f, 0x6b]

/-- `STATUS_EXT_ERROR`, src/command/archive/common.h:29. -/
def errorExt : Str := [0x2e, 0x65, 0x72, 0x72, 0x6f, 0x72]

/-- `STATUS_EXT_READY`, src/command/archive/push/push.c. -/
def readyExt : Str := [0x2e, 0x72, 0x65, 0x61, 0x64, 0x79]

/-- `strEndsWithZ`, src/common/type/string.c:705-724. -/
def endsWith (s e : Str) : Bool := e.length ≤ s.length && s.drop (s.length - e.length) == e

/-- Remove an extension of the given length, `strLstAddSub`. -/
def dropExt (e s : Str) : Str := s.take (s.length - e.length)

/-- `archivePushReadyList`, lines 94-123: sorted before the extension is removed. -/
def readyList (archiveStatus : List Str) : List Str :=
  (sortAsc (archiveStatus.filter fun s => endsWith s readyExt)).map (dropExt readyExt)

/-- The list of ok files, lines 149-165. -/
def okList (spool : List Str) : List Str := ((sortAsc spool).filter fun s => endsWith s okExt).map (dropExt okExt)

/-- The files in the spool directory after lines 154-179: files that do not end in ok are removed, and the ok files of the list. -/
def spoolAfter (spool okRemove : List Str) : List Str :=
  spool.filter fun s => endsWith s okExt && !okRemove.contains (dropExt okExt s)

/-- `archivePushProcessList`, lines 133-187: the list and the files left in the spool directory. -/
def processList (archiveStatus spool : List Str) : List Str × List Str :=
  let ready := readyList archiveStatus
  let ok := okList spool
  (mergeAnti ready ok, spoolAfter spool (mergeAnti ok ready))

/-- `archivePushDrop`, lines 64-89, with the size of the first file. -/
def pushDrop (queueMax size : Nat) (ready : List Str) : Bool := decide (size * ready.length > queueMax)

/-- Limit of the number of files in a run, lines 564-567. -/
def batchLimit (batchMax : Nat) (files : List Str) : List Str :=
  if _h : files.length > 1 ∧ files.length > batchMax then batchLimit batchMax files.dropLast else files
termination_by files.length
decreasing_by simp only [List.length_dropLast]; omega

end Verif.Archive
