import Verif.Label.Regexp

/-! # Model of the expire command (src/command/expire/expire.c) and of the backup list (src/info/infoBackup.c) -/

namespace Verif.Expire

open Verif.Label

/-- `InfoBackupData` (src/info/infoBackup.h:30-70): the members that expiration reads. `refs` is
`backupReference`. -/
structure Backup where
  label : Str
  prior : Option Str
  refs : List Str
  stop : Int
  pgId : Nat
  archiveStart : Option Str
  archiveStop : Option Str
  deriving DecidableEq

/-- `infoBackupDataLabelList`, src/info/infoBackup.c:602-634. -/
def labelList (p : Str → Bool) (l : List Backup) : List Str := (l.map Backup.label).filter p

/-- `infoBackupDataDependentList`, src/info/infoBackup.c:637-667. -/
def dependentLoop : List Backup → List Str → List Str
  | [], result => result
  | b :: rest, result =>
    match b.prior with
    | none => dependentLoop rest result
    | some p => if p ∈ result then dependentLoop rest (result ++ [b.label]) else dependentLoop rest result

def dependentList (l : List Backup) (label : Str) : List Str := dependentLoop l [label]

/-- `infoBackupDataDelete`, src/info/infoBackup.c:578-599. The index is advanced even when an entry was removed, so
the entry behind a removed one is not examined. -/
def dataDelete (label : Str) : List Backup → List Backup
  | [] => []
  | b :: rest =>
    if b.label = label then
      match rest with
      | [] => []
      | c :: rest' => c :: dataDelete label rest'
    else b :: dataDelete label rest

/-- The order in which `expireBackup` (src/command/expire/expire.c:57-82) invalidates backups: the manifests of a
backup are removed and then its entry. -/
def expireOrder (l : List Backup) (label : Str) : List Str := sortDesc (dependentList l label)

/-- `expireBackup`, src/command/expire/expire.c:41-90: the list afterwards. -/
def expireBackup (l : List Backup) (label : Str) : List Backup :=
  (expireOrder l label).foldl (fun l x => dataDelete x l) l

/-- `infoBackupLabelExists`. -/
def labelExists (l : List Backup) (label : Str) : Bool := l.any (fun b => b.label = label)

/-- `infoBackupDataByLabel`: `lstFind` by label. -/
def byLabel (l : List Backup) (label : Str) : Option Backup := l.find? (fun b => b.label = label)

/-- `expireAdhocBackup`, src/command/expire/expire.c:95-167: the list afterwards and the label that the latest link is
set to (when it is). The label must be in the list (checked by the caller, line 1140). -/
def expireAdhoc (l : List Backup) (label : Str) : Res (List Backup × Option Str) := do
  let fullList := sortDesc (labelList isFull l)
  match fullList with
  | [] => .error .ub
  | f :: older =>
    if f = label then
      match older with
      | [] => .error .backupSetInvalid
      | g :: _ =>
        match byLabel l label, byLabel l g with
        | some a, some b => if a.pgId ≠ b.pgId then .error .backupSetInvalid else pure ()
        | _, _ => .error .ub
    else pure ()
  match l.getLast? with
  | none => .error .ub
  | some latest =>
    let l' := expireBackup l label
    if labelExists l' latest.label then .ok (l', none)
    else
      match l'.getLast? with
      | none => .error .ub
      | some newLatest => .ok (l', some newLatest.label)

/-- `expireDiffBackup`, src/command/expire/expire.c:172-224. -/
def expireDiff (retention : Nat) (l : List Backup) : List Backup :=
  if retention > 0 then
    let current := labelList (matchRegExp true true false) l
    if current.length > retention then
      (current.take (current.length - retention)).foldl
        (fun l x => if isFull x then l else expireBackup l x) l
    else l
  else l

/-- `expireFullBackup`, src/command/expire/expire.c:229-275. -/
def expireFull (retention : Nat) (l : List Backup) : List Backup :=
  if retention > 0 then
    let current := labelList isFull l
    if current.length > retention then
      (current.take (current.length - retention)).foldl expireBackup l
    else l
  else l

/-- Lines 305-322 of `expireTimeBasedBackup`: from the newest full backup to the oldest, the first that stopped before
`minTimestamp`. The argument is the list of full backups from newest to oldest. -/
def retentionMet (l : List Backup) (minTimestamp : Int) : List Str → Res (Option Str)
  | [] => .ok none
  | f :: older =>
    match byLabel l f with
    | none => .error .ub
    | some b => if b.stop < minTimestamp then .ok (some f) else retentionMet l minTimestamp older

/-- Lines 328-344 of `expireTimeBasedBackup`: expire the first backup until it is the one to keep. Returns the list
and the number of passes. `fuel` bounds the passes. -/
def expireUntil (keep : Str) : (fuel : Nat) → List Backup → Nat → Res (List Backup × Nat)
  | 0, _, _ => .error .unknown
  | _ + 1, [], _ => .error .assert
  | fuel + 1, b :: rest, n =>
    if b.label = keep then .ok (b :: rest, n) else expireUntil keep fuel (expireBackup (b :: rest) b.label) (n + 1)

/-- `expireTimeBasedBackup`, src/command/expire/expire.c:280-360: the list afterwards and the archive retention
derived from it (lines 346-353; used only when the option is not set and its type is full). -/
def expireTime (minTimestamp : Int) (l : List Backup) : Res (List Backup × Option Nat) := do
  let current := sortAsc (labelList isFull l)
  match ← retentionMet l minTimestamp current.reverse with
  | none => pure (l, none)
  | some keep => do
    let (l', n) ← expireUntil keep (l.length + 1) l 0
    pure (l', some (current.length - n))

/-! ## Archive -/

/-- `ArchiveRange`, src/command/expire/expire.c:32-36. -/
structure Range where
  start : Str
  stop : Option Str
  deriving DecidableEq

/-- The test of lines 419-420 and 471-472 of src/command/expire/expire.c on names cut to `n` characters. -/
def inRange (n : Nat) (name : Str) (r : Range) : Bool :=
  decide (r.start.take n ≤ name) && (match r.stop with | none => true | some e => decide (name ≤ e.take n))

/-- `^[0-F]{24}.*$` (line 458): in the "C" locale the range contains the characters from `0` to `F`. -/
def walFile (name : Str) : Bool := decide (24 ≤ name.length) && (name.take 24).all (fun c => 0x30 ≤ c && c ≤ 0x46)

/-- `expireArchiveId`, src/command/expire/expire.c:382-513: is the file `name` in the directory `dir` of the archive
removed (with its directory or alone)? -/
def walRemoved (ranges : List Range) (expireMax : Option Str) (dir name : Str) : Bool :=
  if !ranges.any (inRange 16 dir) then true
  else if (match expireMax with | none => true | some m => decide (dir ≤ m.take 16)) then
    walFile name && !ranges.any (fun r => decide (r.start ≤ name.take 24) &&
      (match r.stop with | none => true | some e => decide (name.take 24 ≤ e)))
  else false

/-- Type of backup used for archive retention. -/
inductive Kind where
  | full | diff | incr
  deriving DecidableEq

/-- What is done with the WAL of an archive id. -/
inductive Plan where
  | keep
  | removeAll
  | expire (ranges : List Range) (expireMax : Option Str) (historyTimeline : Option Str)
  deriving DecidableEq

/-- Lines 553-575: backups used for archive retention, from newest to oldest. -/
def retentionList (kind : Kind) (l : List Backup) : List Str :=
  sortDesc (labelList (match kind with
    | .full => matchRegExp true false false
    | .diff => matchRegExp true true false
    | .incr => matchRegExp true true true) l)

/-- Lines 753-785: ranges to preserve, given the backups of the archive id and the backup selected for retention. -/
def rangeList (sel : Backup) : List Backup → List Range
  | [] => []
  | b :: rest =>
    match b.archiveStart with
    | some s =>
      if b.label ≤ sel.label then
        ⟨s, if b.label = sel.label then none else b.archiveStop⟩ :: rangeList sel rest
      else rangeList sel rest
    | none => rangeList sel rest

/-- `removeExpiredArchive` (src/command/expire/expire.c:518-846) for one archive id that has a directory, with the
id `pgId` in its name and `currentId` the id of the current database. The check that the history lists of
archive.info and backup.info agree (lines 610-628) is done before and only throws. The loop condition over the
directories finds at most one directory for an archive id. -/
def archivePlan (l : List Backup) (kind : Kind) (retention : Nat) (expireBefore : Option Str) (pgId currentId : Nat) :
    Res Plan :=
  if retention = 0 then .ok .keep
  else
    let globalList := retentionList kind l
    if expireBefore.isSome ∨ (globalList ≠ [] ∧ retention ≤ globalList.length) then
      let globalArchiveList := globalList.take (min retention globalList.length)
      -- oldest to newest
      let localList := globalList.reverse.flatMap fun x =>
        (l.filter fun b => decide (b.label = x) && decide (b.pgId = pgId)).map Backup.label
      match localList.getLast? with
      | none =>
        match expireBefore with
        | some w => if currentId = pgId then .ok (.expire [⟨w, none⟩] none none) else .ok .removeAll
        | none => if currentId ≠ pgId then .ok .removeAll else .ok .keep
      | some newest =>
        let localArchiveList := globalArchiveList.reverse.flatMap fun x => localList.filter fun y => decide (x = y)
        let selected := localArchiveList.headD newest
        -- the last entry with the label
        match (l.filter fun b => decide (b.label = selected)).getLast? with
        | none => .ok .keep
        | some sel =>
          match sel.archiveStart with
          | none => .ok .keep
          | some start =>
            let idList := l.filter fun b => decide (b.pgId = pgId)
            let ranges := rangeList sel idList
            let extra := match expireBefore with
              | some w => if w < start then [⟨w, some start⟩] else []
              | none => []
            .ok (.expire (ranges ++ extra) (some start) (some (start.take 8)))
    else .ok .keep

/-- Lines 806-836: is a timeline history file removed? -/
def historyRemoved (historyTimeline : Option Str) (name : Str) : Bool :=
  match historyTimeline with
  | none => false
  | some t => decide (name.take 8 < t)

/-- Is the file `name` in the directory `dir` of the archive id removed? -/
def planRemoves (p : Plan) (dir name : Str) : Bool :=
  match p with
  | .keep => false
  | .removeAll => true
  | .expire ranges expireMax _ => walRemoved ranges expireMax dir name

/-! ## Backups on disk -/

/-- State of a backup directory: which manifests exist, and the prior backup of the manifest copy. -/
structure Dir where
  label : Str
  manifest : Bool
  manifestCopy : Bool
  copyPrior : Option Str
  deriving DecidableEq

/-- `infoBackupLabelExists` for the prior backup of a manifest (line 902); a full backup has none (`NULL`), which is not
found. -/
def priorExists (l : List Backup) : Option Str → Bool
  | none => false
  | some p => labelExists l p

/-- Lines 875-906 of `removeExpiredBackup`: the index of the first directory that may be removed. -/
def firstRemovable (l : List Backup) (adhoc : Option Str) : List Dir → Nat
  | [] => 0
  | d :: _ =>
    if !d.manifest && d.manifestCopy then
      match adhoc with
      | some a => if a.take 16 <+: d.label then (if priorExists l d.copyPrior then 1 else 0) else 1
      | none => 1
    else 0

/-- `removeExpiredBackup`, src/command/expire/expire.c:851-930: labels of the directories that are removed. `disk` has
the directories whose names match the label expression (line 871), from newest to oldest (line 872). -/
def removeExpiredBackup (l : List Backup) (adhoc : Option Str) (dryRun : Bool) (disk : List Dir) : List Str :=
  if dryRun then []
  else ((disk.drop (firstRemovable l adhoc disk)).filter fun d => !labelExists l d.label).map Dir.label

/-- `removeExpiredHistory`, src/command/expire/expire.c:935-1026, when the option is set: what remains of the history
`repo` of the repository. An entry is the directory (a year) and the label of a manifest. `minLabel` is the label of a
full backup at the start of the retained period (line 955). The names of what to remove are read from the history
`first` of the default repository (lines 960 and 987), not from `repo`. The loop stops at the first newer year, for
which nothing is removed anyway. -/
def removeExpiredHistory (l : List Backup) (minLabel : Str) (first repo : List (Str × Str)) : List (Str × Str) :=
  repo.filter fun (year, label) =>
    !(if year < minLabel.take 4 then first.any fun e => decide (e.1 = year)
      else if year = minLabel.take 4 then
        decide ((year, label) ∈ first) && !labelExists l label && decide (label < minLabel)
      else false)

/-! ## The command -/

/-- Options that the command reads for a repository. `minTimestamp` is the current time less the retention period (line
1165). A retention that is not set is zero (`full` and `time` are used according to the type). -/
structure Options where
  timeBased : Bool
  full : Nat
  minTimestamp : Option Int
  diff : Nat
  archive : Nat
  archiveKind : Kind
  oldest : Bool
  adhoc : Option Str

/-- `cmdExpire`, src/command/expire/expire.c:1097-1173, for a repository: the list that is saved and the retention and
type used for the archive. The reconstruction of the list (line 1097) is modelled elsewhere. -/
def expireRepo (o : Options) (l : List Backup) : Res (List Backup × Nat × Kind) :=
  let fullSize := (labelList isFull l).length
  let o := if o.oldest ∧ fullSize > 1 then
      { o with timeBased := false, full := fullSize - 1, archive := fullSize - 1, archiveKind := .full }
    else o
  match o.adhoc with
  | some x =>
    if labelExists l x then
      match expireAdhoc l x with
      | .ok (l', _) => .ok (l', o.archive, o.archiveKind)
      | .error e => .error e
    else .ok (l, o.archive, o.archiveKind)
  | none =>
    if o.timeBased then
      match o.minTimestamp with
      | some t =>
        match expireTime t l with
        | .ok (l', derived) =>
          -- lines 346-353: used when the archive retention is not set and its type is full
          let archive := match derived with
            | some n => if o.archive = 0 ∧ o.archiveKind = .full then n else o.archive
            | none => o.archive
          .ok (expireDiff o.diff l', archive, o.archiveKind)
        | .error e => .error e
      | none => .ok (expireDiff o.diff l, o.archive, o.archiveKind)
    else .ok (expireDiff o.diff (expireFull o.full l), o.archive, o.archiveKind)

end Verif.Expire
