import Verif.Archive.QueueModel

/-! # Model of the status files of asynchronous archiving

src/command/archive/common.c. The spool directory is a list of files with their content. -/

namespace Verif.Archive

open Verif.Num

abbrev Spool := List (Str × Bytes)

/-- Content of a file. -/
def Spool.get (spool : Spool) (name : Str) : Option Bytes := (spool.find? fun f => f.1 == name).map Prod.snd

/-- `storageRemoveP`. -/
def Spool.remove (spool : Spool) (name : Str) : Spool := spool.filter fun f => f.1 != name

/-- `STATUS_FILE_GLOBAL`, line 33. -/
def globalName : Str := [0x67, 0x6c, 0x6f, 0x62, 0x61, 0x6c]

/-- `strTrim`, src/common/type/string.c:983-1027. -/
def isTrim (c : UInt8) : Bool := c == 0x20 || c == 0x09 || c == 0x0d || c == 0x0a

def trim (s : Str) : Str := ((s.dropWhile isTrim).reverse.dropWhile isTrim).reverse

/-- `cvtZToInt`, src/common/type/convert.c:379-409 (called by `varIntForce`, src/common/type/variant.c:380). -/
def toInt (s : Str) : Res Int :=
  match toInt64Base 10 s with
  | .error e => .error e
  | .ok v => if v > 2 ^ 31 - 1 ∨ v < - 2 ^ 31 then .error .format else .ok v

/-- What a status file says: nothing (empty), or code and message. Lines 125-145. The functions of the C library end at a zero. -/
def parseStatus (content : Bytes) : Res (Option (Int × Str)) :=
  if content = [] then .ok none
  else
    let z := content.takeWhile (· != 0)
    match z.dropWhile (· != 0x0a) with
    | [] => .error .format
    | _ :: rest =>
      if rest = [] then .error .format
      else
        match toInt (z.takeWhile (· != 0x0a)) with
        | .error e => .error e
        | .ok code => .ok (some (code, trim rest))

/-- What the caller of `archiveAsyncStatus` gets: true with a warning that is logged, false, an error with the code and the message in
the file, or another error. -/
inductive Status where
  | ok (warn : Option (Int × Str))
  | wait
  | thrown (code : Int) (message : Str)
  | fail (e : Err)
deriving DecidableEq

/-- `archiveAsyncStatus`, lines 77-180. -/
def asyncStatus (spool : Spool) (seg : Str) (throwOnError warnOnOk : Bool) : Status :=
  match spool.get (seg ++ okExt) with
  | some content =>
    match parseStatus content with
    | .error e => .fail e
    | .ok c => .ok (if warnOnOk then c else none)
  | none =>
    -- File-specific error first, then the global error, lines 104-113
    match (spool.get (seg ++ errorExt)).or (spool.get (globalName ++ errorExt)) with
    | none => .wait
    | some content =>
      match parseStatus content with
      | .error e => .fail e
      | .ok c =>
        if throwOnError then
          match c with
          | none => .fail .assert
          | some (code, message) => .thrown code message
        else .wait

/-- `archiveAsyncStatusErrorWrite`, lines 183-210. The code is not 0 (assertion in line 194). -/
def errorWrite (spool : Spool) (seg : Option Str) (code : Int) (message : Str) : Spool :=
  putFile (seg.getD globalName ++ errorExt) (intToZ code ++ [0x0a] ++ message) spool

/-- `archiveAsyncStatusOkWrite`, lines 213-235. -/
def okWrite (spool : Spool) (seg : Str) (warning : Option Str) : Spool :=
  putFile (seg ++ okExt) (match warning with | none => [] | some w => [0x30, 0x0a] ++ w) spool

/-- `archiveAsyncErrorClear`, lines 54-74. -/
def errorClear (spool : Spool) (seg : Str) : Spool := (spool.remove (seg ++ errorExt)).remove (globalName ++ errorExt)

/-- A pass of the loop in the foreground: what other processes did to the spool directory before it, and if the lock is free. -/
structure Pass where
  change : Spool → Spool
  lock : Bool

/-- The loop of `cmdArchivePush` in src/command/archive/push/push.c:339-393. -/
def pushWait (seg : Str) : Spool → (throwOnError forked : Bool) → List Pass → Status
  | _, _, _, [] => .fail .archiveTimeout
  | spool, throwOnError, forked, p :: passes =>
    let spool := p.change spool
    match asyncStatus spool seg throwOnError true with
    | .wait =>
      if !forked && p.lock then pushWait seg (errorClear spool seg) true true passes
      else pushWait seg spool true forked passes
    | r => r

/-- `cmdArchivePush` in asynchronous mode. -/
def pushAsync (seg : Str) (spool : Spool) (passes : List Pass) : Status := pushWait seg spool false false passes

end Verif.Archive
