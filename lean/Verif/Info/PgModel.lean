import Verif.Info.IniModel

/-!
# The database history of archive.info and backup.info

Model of src/info/infoPg.c. The text of the file and the checksum are those of `Verif.Info.save` and `Verif.Info.load`.
-/

namespace Verif.Info.Pg

open Verif.Json

/-- `InfoPgData` (src/info/infoPg.h 27-36). -/
structure Data where
  id : Nat
  version : Nat
  sys : Nat
  catalog : Nat := 0
  control : Nat := 0
  deriving DecidableEq, Repr

/-- `InfoPgType` (src/info/infoPg.h 41-45). -/
inductive Kind
  | archive
  | backup
  deriving DecidableEq, Repr

/-- `InfoPg` (src/info/infoPg.c 28-34). `current` is `historyCurrent`. -/
structure Pg where
  kind : Kind
  history : List Data
  current : Nat
  deriving DecidableEq, Repr

/-- `infoPgNew` (infoPg.c 36-82). -/
def new (kind : Kind) : Pg := ⟨kind, [], 0⟩

/-- `infoPgData` (infoPg.c 408-422): `lstGet` throws an error when there is no such element (src/common/type/list.c). -/
def data (p : Pg) (i : Nat) : Res Data :=
  match p.history[i]? with
  | some d => .ok d
  | none => .error .assert

/-- `infoPgAdd` (infoPg.c 211-226). -/
def add (p : Pg) (d : Data) : Pg := { p with history := d :: p.history, current := 0 }

/-- The id of a new entry (infoPg.c 243-247). It is an unsigned int of 32 bits. -/
def nextId (p : Pg) : Res Nat := if p.history = [] then .ok 1 else do .ok (((← data p p.current).id + 1) % 2 ^ 32)

/-- `infoPgSet` (infoPg.c 229-272). `cv` is `pgControlVersion` (src/postgres/interface.c). -/
def set (cv : Nat → Nat) (p : Pg) (version sys catalog : Nat) : Res Pg := do
  let id ← nextId p
  .ok (add p (match p.kind with
    | .archive => { id := id, version := version, sys := sys }
    | .backup => { id := id, version := version, sys := sys, catalog := catalog, control := cv version }))

/-- `pgVersionToStr` (src/postgres/interface.c 759-770). -/
def versionToStr (v : Nat) : Str :=
  if v ≥ 100000 then Num.uintToZ (v / 10000) else Num.uintToZ (v / 10000) ++ 46 :: Num.uintToZ (v % 10000 / 100)

/-- The expression `^[0-9]+[.]*[0-9]+$` (interface.c 745). -/
def versionMatch (s : Str) : Bool :=
  let d := s.takeWhile isDigit
  let r := s.dropWhile isDigit
  let t := r.dropWhile (· == 46)
  if r.isEmpty then 2 ≤ d.length else !d.isEmpty && r.head? == some 46 && !t.isEmpty && t.all isDigit

/-- `pgVersionFromStr` (interface.c 735-757). The arithmetic is that of unsigned int. -/
def versionFromStr (s : Str) : Res Nat :=
  if versionMatch s = false then .error .assert
  else
    let major := s.takeWhile (· != 46)
    let rest := s.dropWhile (· != 46)
    if rest = [] then do .ok ((← Num.toUIntBase 10 s) * 10000 % 2 ^ 32)
    else do .ok (((← Num.toUIntBase 10 major) * 10000 + (← Num.toUIntBase 10 rest.tail) * 100) % 2 ^ 32)

/-- `infoPgArchiveId` (infoPg.c 388-405). -/
def archiveId (p : Pg) (i : Nat) : Res Str := do
  let d ← data p i
  .ok (versionToStr d.version ++ 45 :: Num.uintToZ d.id)

/-- `db` (infoPg.c 85) -/
def dbZ : Str := [100, 98]
/-- `db:history` (infoPg.c 86) -/
def historyZ : Str := dbZ ++ [58, 104, 105, 115, 116, 111, 114, 121]
/-- `db-catalog-version` (infoPg.c 88) -/
def catalogZ : Str := dbZ ++ [45, 99, 97, 116, 97, 108, 111, 103, 45, 118, 101, 114, 115, 105, 111, 110]
/-- `db-control-version` (infoPg.c 89) -/
def controlZ : Str := dbZ ++ [45, 99, 111, 110, 116, 114, 111, 108, 45, 118, 101, 114, 115, 105, 111, 110]
/-- `db-id` (infoPg.h 22) -/
def idZ : Str := dbZ ++ [45, 105, 100]
/-- `db-system-id` (infoPg.c 90) -/
def systemZ : Str := dbZ ++ [45, 115, 121, 115, 116, 101, 109, 45, 105, 100]
/-- `db-version` (infoPg.c 91) -/
def versionZ : Str := dbZ ++ [45, 118, 101, 114, 115, 105, 111, 110]

/-- `infoSaveSection` (src/info/info.c 269-285). -/
def saveSection (last : Option Str) (sec : Str) (next : Option Str) : Bool :=
  (match last with
    | none => true
    | some l => decide (l < sec)) &&
  (match next with
    | none => true
    | some n => decide (sec < n))

/-- The section of the last value that was saved. -/
def lastOf (last : Option Str) (l : List Entry) : Option Str :=
  match l.getLast? with
  | none => last
  | some e => some e.sec

/-- A value in the section `db`. -/
def dbValue (key : Str) (v : Val) : Res Entry := do .ok ⟨dbZ, key, ← jsonFromVar v⟩

/-- The section `db` (infoPg.c 304-315). -/
def dbSection (p : Pg) : Res (List Entry) := do
  let d ← data p p.current
  let version ← match p.kind with
    | .archive => .ok []
    | .backup => do .ok [← dbValue catalogZ (.num d.catalog), ← dbValue controlZ (.num d.control)]
  .ok (version ++ [← dbValue idZ (.num d.id), ← dbValue systemZ (.num d.sys), ← dbValue versionZ (.str (versionToStr d.version))])

/-- The fields of an object in the section `db:history`, in the order in which they are written (infoPg.c 329-342). -/
def historyFields (kind : Kind) (d : Data) : List (Str × Val) :=
  (match kind with
    | .archive => [(idZ, .num d.sys)]
    | .backup => [(catalogZ, .num d.catalog), (controlZ, .num d.control), (systemZ, .num d.sys)]) ++
  [(versionZ, .str (versionToStr d.version))]

/-- A value in the section `db:history` (infoPg.c 326-346). -/
def historyValue (kind : Kind) (d : Data) : Res Entry := do
  let st ← writeVal writeNew (.obj (historyFields kind d))
  .ok ⟨historyZ, Num.uintToZ d.id, st.json⟩

/-- The section `db:history`, oldest first (infoPg.c 323-347). The index is cast to a signed int: there are less than 2^31 entries. -/
def historySection (p : Pg) : Res (List Entry) := p.history.reverse.mapM (historyValue p.kind)

/-- `infoPgSaveCallback` (infoPg.c 283-355). `last` is the section of the last value and `c` are the values that the callback of the child saves
when it is called at lines 302, 321 and 352. -/
def saveCallback (p : Pg) (last next : Option Str) (c : Fin 3 → List Entry) : Res (List Entry) := do
  let a ← if saveSection last dbZ next then do .ok (c 0 ++ (← dbSection p)) else .ok []
  let b ← if saveSection (lastOf last a) historyZ next then do .ok (c 1 ++ (← historySection p)) else .ok []
  .ok (a ++ b ++ c 2)

/-- `infoPgSave` (infoPg.c 357-386) with `infoSave` (src/info/info.c 343-403), which calls the callback before the section `backrest`, before the
section `cipher` when there is a passphrase, and at the end. `c0`, `c1` and `c2` are the values of the child in these calls. -/
def save (H : Str → Str) (p : Pg) (pass : Option Str) (c0 c1 c2 : Fin 3 → List Entry) : Res Str := do
  let before ← saveCallback p none (some backrestZ) c0
  match pass with
  | none => do
    let after ← saveCallback p (some backrestZ) none c2
    Info.save H before none after
  | some pass => do
    let between ← saveCallback p (some backrestZ) (some cipherZ) c1
    let after ← saveCallback p (some cipherZ) none c2
    Info.save H before (some (between, pass)) after

/-- A value in the section `db:history` (infoPg.c 129-148). -/
def loadHistory (kind : Kind) (e : Entry) : Res Data := do
  let id ← Num.toUIntBase 10 e.key
  let st ← readObjectBegin (readNew e.val)
  let (catalog, control, st) ← match kind with
    | .archive => .ok (0, 0, st)
    | .backup => do
      let (catalog, st) ← readUInt (← readKeyRequire catalogZ st)
      let (control, st) ← readUInt (← readKeyRequire controlZ st)
      .ok (catalog, control, st)
  let (sys, st) ← readUInt64 (← readKeyRequire (match kind with | .archive => idZ | .backup => systemZ) st)
  let (version, _) ← readStr (← readKeyRequire versionZ st)
  match version with
  | none => .error .ub
  | some version => do .ok ⟨id, ← versionFromStr version, sys, catalog, control⟩

/-- What is loaded: `currentId`, the history and the values that are given to the child. -/
structure Ld where
  currentId : Nat := 0
  history : List Data := []
  child : List Entry := []
  deriving DecidableEq

/-- `infoPgLoadCallback` (infoPg.c 101-155). -/
def loadCallback (kind : Kind) (st : Ld) (e : Entry) : Res Ld :=
  if e.sec = dbZ then
    if e.key = idZ then do
      let (n, _) ← readUInt (readNew e.val)
      .ok { st with currentId := n }
    else .ok st
  else if e.sec = historyZ then do
    let d ← loadHistory kind e
    .ok { st with history := d :: st.history }
  else .ok { st with child := st.child ++ [e] }

/-- The loop that looks for the current entry (infoPg.c 196-201). -/
def findCurrent (history : List Data) (id : Nat) : Option Nat :=
  (List.range history.length).foldl (fun c i => if (history[i]?).map (·.id) = some id then some i else c) none

/-- `infoPgNewLoad` (infoPg.c 157-208). The callback is called for all values after the file was read; in the code it is called as each value is
read, so an error in a value may come before an error in a later line. -/
def load (buffer : Nat) (H : Str → Str) (kind : Kind) (file : Str) : Res (Pg × Option Str × List Entry) := do
  let r ← Info.load buffer H file
  let st ← r.out.foldlM (loadCallback kind) {}
  if st.history = [] then .error .format
  else if st.currentId = 0 then .error .format
  else
    match findCurrent st.history st.currentId with
    | none => .error .format
    | some i => .ok (⟨kind, st.history, i⟩, r.pass, st.child)

end Verif.Info.Pg
