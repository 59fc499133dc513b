import Verif.Archive.StatusModel
import Verif.Wal.Model

/-! # Model of src/command/restore/timeline.c

`historyParse` uses functions that end at a zero byte; the content is taken to have none. The assertions that timeline and position
of a history line are not zero (lines 65-66) exist in test builds only and are left out. Encryption is not modelled. -/

namespace Verif.Restore

open Num Wal
open Archive (trim)

/-- One line of a history file, lines 43-63: `none` is a line to skip. -/
def historyLine (raw : Str) : Res (Option (Nat × Nat)) :=
  match trim raw with
  | [] => .ok none
  | c :: rest =>
    if c = 0x23 then .ok none
    else match split 0x09 (c :: rest) with
      | t :: l :: _ =>
        match toUIntBase 10 t with
        | .error e => .error e
        | .ok timeline =>
          match lsnFromStr l with
          | .error e => .error e
          | .ok lsn => .ok (some (timeline, lsn))
      | _ => .error .format

/-- The loop of `historyParse`, lines 41-69. -/
def historyLines : List Str → Res (List (Nat × Nat))
  | [] => .ok []
  | raw :: lines =>
    match historyLine raw with
    | .error e => .error e
    | .ok item =>
      match historyLines lines with
      | .error e => .error e
      | .ok items => .ok (item.toList ++ items)

/-- `historyParse`, lines 28-74. -/
def historyParse (content : Str) : Res (List (Nat × Nat)) := historyLines (split 0x0a content)

/-- What the repository has for an archive id: names in the directory and contents of history files by timeline. -/
structure HistRepo where
  names : Res (List Str)
  content : Nat → Res Str

/-- `historyLoad`, lines 79-115. -/
def historyLoad (repo : HistRepo) (timeline : Nat) : Res (List (Nat × Nat)) :=
  match repo.content timeline with
  | .error e => .error e
  | .ok content =>
    match historyParse content with
    | .error _ => .error .format
    | .ok items => .ok items

/-- `.history` -/
def historyExt : Str := [0x2e, 0x68, 0x69, 0x73, 0x74, 0x6f, 0x72, 0x79]

/-- `[0-F]{8}\.history` anywhere in the name, line 137. The range is in the order of the "C" locale. -/
def historyMatch : Str → Bool
  | [] => false
  | c :: s =>
    (8 ≤ (c :: s).length && ((c :: s).take 8).all (fun x => 0x30 ≤ x && x ≤ 0x46) && historyExt.isPrefixOf ((c :: s).drop 8)) ||
    historyMatch s

/-- `timelineLatest`, lines 120-151. -/
def timelineLatest (repo : HistRepo) (current : Nat) : Res Nat :=
  match repo.names with
  | .error e => .error e
  | .ok names =>
    match sortDesc (names.filter historyMatch) with
    | [] => .ok current
    | name :: _ =>
      match toUIntBase 16 (name.take 8) with
      | .error e => .error e
      | .ok latest => if latest > current then .ok latest else .ok current

/-- `current`, line 154. -/
def targetCurrent : Str := [0x63, 0x75, 0x72, 0x72, 0x65, 0x6e, 0x74]

/-- `latest`, line 155. -/
def targetLatest : Str := [0x6c, 0x61, 0x74, 0x65, 0x73, 0x74]

/-- The default of the target, lines 183-189. -/
def targetDefault (le11 immediate : Bool) : Option Str → Str
  | some t => t
  | none => if le11 || immediate then targetCurrent else targetLatest

/-- The number of the target timeline, lines 201-217. -/
def targetTimeline (repo : HistRepo) (backup : Nat) (t : Str) : Res Nat :=
  if t = targetLatest then timelineLatest repo backup
  else match (if [0x30, 0x78].isPrefixOf t then toUIntBase 16 (t.drop 2) else toUIntBase 10 t) with
    | .error _ => .error .dbMismatch
    | .ok n => .ok n

/-- `timelineVerify`, lines 157-292. -/
def timelineVerify (repo : HistRepo) (le11 immediate : Bool) (backup lsnBackup : Nat) (target : Option Str) : Res Unit :=
  if targetDefault le11 immediate target = targetCurrent then .ok ()
  else match targetTimeline repo backup (targetDefault le11 immediate target) with
    | .error e => .error e
    | .ok timeline =>
      if timeline = backup then .ok ()
      else match historyLoad repo timeline with
        | .error e => .error e
        | .ok items => if items.any (fun i => i.1 == backup && lsnBackup < i.2) then .ok () else .error .dbMismatch

end Verif.Restore
