import Verif.Json.Model

/-!
# Information files

Model of `infoSave` and `infoNewLoad` (src/info/info.c), of the strict mode of `iniValueNext` (src/common/ini.c) and of the lines that
`ioReadLineParam` (src/common/io/read.c) reads. The hash is a parameter `H` from texts to the hexadecimal text of the checksum. The size of
the buffer of the reader is a parameter. Encryption and the reading and writing of the file are not part of this model (see `LoadModel`).
The callbacks of the users of `Info` are modelled by the values that they save and the values that they are given; errors they throw are not
modelled.
-/

namespace Verif.Info

open Verif.Json (Val jsonFromVar jsonToVar validate escape)

/-- A section, a key and the text of a value. -/
structure Entry where
  sec : Str
  key : Str
  val : Str
  deriving DecidableEq

/-- The lines of a file (read.c 269-351 with `allowEof`, ini.c 101). Nothing follows a final linefeed. -/
def lines : Str → List Str
  | [] => []
  | c :: r =>
    if c = 10 then [] :: lines r
    else
      match lines r with
      | [] => [[c]]
      | l :: ls => (c :: l) :: ls

/-- A C string ends before the first terminator. -/
def zstr (s : Str) : Str := s.takeWhile (· != 0)

/-- The search for the equals sign that separates key and value (ini.c 135-185, strict). `key` is the part of the line before `rest` with the
equals signs that were tried. Only a `JsonFormatError` leads to another try. -/
def splitAt (key : Str) : Str → Res (Str × Str)
  | [] => .error .format
  | c :: r =>
    if c = 61 then
      match validate r with
      | .ok () => .ok (key, r)
      | .error .jsonFormat => splitAt (key ++ [c]) r
      | .error e => .error e
    else splitAt (key ++ [c]) r

/-- One line in `iniValueNext` (ini.c 104-194, strict): the section and the value, if there is one. `buffer` is the size of the buffer of the
reader, in which the line must fit with its linefeed (read.c 333-335). -/
def iniLine (buffer : Nat) (sec line : Str) : Res (Str × Option Entry) :=
  if buffer ≤ line.length then .error .fileRead
  else if line = [] then .ok (sec, none)
  else if line.head? = some 91 ∧ line.getLast? = some 93 then
    let s := (line.drop 1).dropLast
    if s = [] then .error .format else .ok (s, none)
  else if sec = [] then .error .format
  else do
    let (k, v) ← splitAt [] (zstr line)
    if k = [] then .error .format else .ok (sec, some ⟨sec, k, v⟩)

/-- `backrest` (info.c 117) -/
def backrestZ : Str := [98, 97, 99, 107, 114, 101, 115, 116]
/-- `backrest-checksum` (info.c 118) -/
def checksumZ : Str := backrestZ ++ [45, 99, 104, 101, 99, 107, 115, 117, 109]
/-- `backrest-format` (info.h) -/
def formatZ : Str := backrestZ ++ [45, 102, 111, 114, 109, 97, 116]
/-- `backrest-version` (info.h) -/
def versionZ : Str := backrestZ ++ [45, 118, 101, 114, 115, 105, 111, 110]
/-- `cipher` (info.c 119) -/
def cipherZ : Str := [99, 105, 112, 104, 101, 114]
/-- `cipher-pass` (info.c 120) -/
def cipherPassZ : Str := cipherZ ++ [45, 112, 97, 115, 115]
/-- `PROJECT_VERSION` (src/version.h), `2.60.0dev`. -/
def projectVersion : Str := [50, 46, 54, 48, 46, 48, 100, 101, 118]

/-- The text of a key and a value for the checksum (info.c 70-77). -/
def sumValue (key val : Str) : Str := (34 :: key.flatMap escape ++ [34]) ++ 58 :: val

/-- The text that a value adds to the input of the checksum (info.c 163-177 and 309-333, with the macros 41-93). `last` is the section of the
value before. -/
def sumNext (last : Option Str) (e : Entry) : Str :=
  (if last = some e.sec then [44] else (if last = none then [] else [125, 44]) ++ (34 :: e.sec ++ [34, 58, 123])) ++ sumValue e.key e.val

/-- The state of `infoNewLoad`. `last` is `sectionLast`, of which an empty string is no section. `out` are the values given to the callback. -/
structure Ld where
  sec : Str := []
  last : Option Str := none
  sum : Str := [123]
  expected : Option Str := none
  version : Option Str := none
  pass : Option Str := none
  out : List Entry := []
  deriving DecidableEq

/-- The text of a string variant. Any other type is undefined behaviour, as `varStr` does not check it (src/common/type/variant.c). -/
def varStr : Val → Res Str
  | .str s => .ok s
  | _ => .error .ub

/-- A value in `infoNewLoad` (info.c 162-228). -/
def loadValue (st : Ld) (e : Entry) : Res Ld := do
  let st := if e.sec = backrestZ ∧ e.key = checksumZ then st else { st with sum := st.sum ++ sumNext st.last e, last := some e.sec }
  if e.sec = backrestZ then
    if e.key = formatZ then
      match ← jsonToVar e.val with
      | .num n => if n = 5 then .ok st else .error .format
      | _ => .error .ub
    else if e.key = versionZ then .ok { st with version := some (← varStr (← jsonToVar e.val)) }
    else if e.key = checksumZ then .ok { st with expected := some (← varStr (← jsonToVar e.val)) }
    else .ok st
  else if e.sec = cipherZ then
    if e.key = cipherPassZ then .ok { st with pass := some (← varStr (← jsonToVar e.val)) } else .ok st
  else .ok { st with out := st.out ++ [e] }

/-- The loop over the lines (info.c 158-232, ini.c 101-197). -/
def loadLines (buffer : Nat) : Ld → List Str → Res Ld
  | st, [] => .ok st
  | st, l :: ls => do
    let (sec, e) ← iniLine buffer st.sec l
    let st := { st with sec := sec }
    match e with
    | none => loadLines buffer st ls
    | some e => do loadLines buffer (← loadValue st e) ls

/-- What is loaded: the version, the passphrase, the values given to the callback, the input of the checksum and the checksum. -/
structure Loaded where
  version : Option Str
  pass : Option Str
  out : List Entry
  input : Str
  checksum : Str
  deriving DecidableEq

/-- `infoNewLoad` (info.c 122-266). -/
def load (buffer : Nat) (H : Str → Str) (file : Str) : Res Loaded := do
  let st ← loadLines buffer {} (lines file)
  let input := st.sum ++ [125, 125]
  match st.expected with
  | none => .error .checksum
  | some c => if c = H input then .ok ⟨st.version, st.pass, st.out, input, c⟩ else .error .checksum

/-- The state of `infoSave`: `sectionLast`, the text written and the input of the checksum. -/
structure Sv where
  last : Option Str := none
  text : Str := []
  sum : Str := [123]

/-- `infoSaveValue` (info.c 288-340). -/
def saveValue (st : Sv) (e : Entry) : Sv :=
  { last := some e.sec
    text := st.text ++ (if st.last = some e.sec then [] else (if st.last = none then [] else [10]) ++ (91 :: e.sec ++ [93, 10])) ++
      (e.key ++ 61 :: e.val ++ [10])
    sum := st.sum ++ sumNext st.last e }

/-- The values that `infoSave` saves (info.c 372-387). `before`, `between` and `after` are saved by the callback before the section `backrest`,
before the section `cipher` and at the end. The first is the text of the version and the second the text of the passphrase. -/
def saveList (version : Str) (before : List Entry) (cipher : Option (List Entry × Str)) (after : List Entry) : List Entry :=
  before ++ [⟨backrestZ, formatZ, [53]⟩, ⟨backrestZ, versionZ, version⟩] ++
    (match cipher with
      | none => []
      | some (between, pass) => between ++ [⟨cipherZ, cipherPassZ, pass⟩]) ++ after

/-- `infoSave` (info.c 343-403). -/
def save (H : Str → Str) (before : List Entry) (cipher : Option (List Entry × Str)) (after : List Entry) : Res Str := do
  let version ← jsonFromVar (.str projectVersion)
  let cipher ← match cipher with
    | none => .ok none
    | some (between, pass) => do .ok (some (between, ← jsonFromVar (.str pass)))
  let st := (saveList version before cipher after).foldl saveValue {}
  let checksum ← jsonFromVar (.str (H (st.sum ++ [125, 125])))
  .ok (st.text ++ (10 :: 91 :: backrestZ ++ [93, 10]) ++ checksumZ ++ 61 :: checksum ++ [10])

end Verif.Info
