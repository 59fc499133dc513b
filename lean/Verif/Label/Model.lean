import Verif.Basic
import Verif.Label.Regexp

/-! # Model of the creation of backup labels (src/command/backup/label.c.inc, src/command/backup/common.c) -/

namespace Verif.Label

/-- `BackupType`. -/
inductive Kind where
  | full | diff | incr
  deriving DecidableEq

/-- `backupLabelFormat`, src/command/backup/common.c:48-79. `fmt` formats a time in the local time zone as
`%Y%m%d-%H%M%S` (`cvtTimeToZP`). For a full backup there is no prior label. -/
def labelFormat (fmt : Int → Str) (kind : Kind) (prior : Str) (t : Int) : Str :=
  match kind with
  | .full => fmt t ++ [0x46]
  | .diff => prior.take 16 ++ 0x5F :: fmt t ++ [0x44]
  | .incr => prior.take 16 ++ 0x5F :: fmt t ++ [0x49]

/-- The expression of lines 28-31 of src/command/backup/label.c.inc (anchored at the end). For a dependent backup it is
the date and time of the prior label, `F_`, a date and time, and `D` or `I`. -/
def labelMatch (kind : Kind) (prior : Str) (s : Str) : Bool :=
  match kind with
  | .full => matchRegExp true true true s
  | _ => s.length == 33 && s.take 15 == prior.take 15 && (s.drop 15).take 2 == [0x46, 0x5F] &&
      isDateTime ((s.drop 17).take 15) && (s.drop 32 == [0x44] || s.drop 32 == [0x49])

/-- `.manifest.gz`. -/
def manifestExt : Str := [0x2E, 0x6D, 0x61, 0x6E, 0x69, 0x66, 0x65, 0x73, 0x74, 0x2E, 0x67, 0x7A]

/-- Lines 33-66: the newest label known. `backups` are the names in the backup path, `history` has the years (that match
`^2[0-9]{3}$`) with the file names in their directory. History files are compared with their extensions. -/
def latestLabel (kind : Kind) (prior : Str) (backups : List Str) (history : List (Str × List Str)) : Option Str :=
  let backupLatest := (sortDesc (backups.filter (labelMatch kind prior))).head?
  match (sortDesc (history.map Prod.fst)).head? with
  | none => backupLatest
  | some year =>
    let files := (history.filter fun h => decide (h.1 = year)).flatMap Prod.snd
    let matching := files.filter fun f =>
      (manifestExt <:+ f) && labelMatch kind prior (f.take (f.length - manifestExt.length))
    match (sortDesc matching).head? with
    | none => backupLatest
    | some f =>
      match backupLatest with
      | none => some (f.take (f.length - manifestExt.length))
      | some b => if b < f then some (f.take (f.length - manifestExt.length)) else some b

/-- `backupLabelCreate`, src/command/backup/label.c.inc:4-101. -/
def labelCreate (fmt : Int → Str) (kind : Kind) (prior : Str) (t : Int) (backups : List Str)
    (history : List (Str × List Str)) : Res Str :=
  let first := labelFormat fmt kind prior t
  match latestLabel kind prior backups history with
  | none => .ok first
  | some latest =>
    if first ≤ latest then
      let second := labelFormat fmt kind prior (t + 1)
      if second ≤ latest then .error .clock else .ok second
    else .ok first

end Verif.Label
