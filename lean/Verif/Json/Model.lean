import Verif.Basic
import Verif.Common.Str
import Verif.Num.Model

/-!
# Reading and writing JSON

src/common/type/json.c. A zero terminated string is a list of bytes without zero bytes; the end of the list is the terminator. Reading past
the terminator is `Err.ub`. Memory contexts are not modelled. Assertions that hold when the functions are used in the order the callers use
them are `Err.ub` when they do not hold, because nothing is checked in a production build.
-/

namespace Verif.Json

/-- A tree of values: `Variant` (src/common/type/variant.c) of the types that JSON has. Numbers are one type: `jsonWriteVar` writes the same
text for all of them. Objects are `KeyValue` (src/common/type/keyValue.c): fields in the order in which they were put. -/
inductive Val where
  | null
  | bool (b : Bool)
  | num (n : Int)
  | str (s : Str)
  | arr (l : List Val)
  | obj (l : List (Str × Val))

/-- The type of the next token (json.h 23-34). -/
inductive Ty where
  | bool
  | null
  | number
  | string
  | arrayBegin
  | arrayEnd
  | objectBegin
  | objectEnd
  deriving DecidableEq, Repr

/-- `jsonTypeScalar` (json.c 55-73). -/
def Ty.scalar : Ty → Bool
  | .bool | .null | .number | .string => true
  | _ => false

/-! ## Reading -/

/-- `JsonReadStack` (json.c 19-23). -/
structure Item where
  object : Bool
  first : Bool
  deriving DecidableEq, Repr

/-- `JsonRead` (json.c 25-33). -/
structure Rd where
  json : Str
  stack : Option (List Item)
  key : Bool
  complete : Bool
  deriving DecidableEq, Repr

/-- `jsonReadNew` (json.c 86-103). -/
def readNew (json : Str) : Rd := ⟨json, none, false, false⟩

/-- White space (json.c 119-126). -/
def isWs (c : UInt8) : Bool := c == 32 || c == 9 || c == 10 || c == 13

/-- `jsonReadConsumeWhiteSpace` (json.c 108-136). -/
def skipWs (s : Str) : Str := s.dropWhile isWs

/-- The type that begins with a byte (json.c 157-205). -/
def tyOf (c : UInt8) : Option Ty :=
  if c = 34 then some .string
  else if c = 45 ∨ (48 ≤ c ∧ c ≤ 57) then some .number
  else if c = 116 ∨ c = 102 then some .bool
  else if c = 110 then some .null
  else if c = 91 then some .arrayBegin
  else if c = 93 then some .arrayEnd
  else if c = 123 then some .objectBegin
  else if c = 125 then some .objectEnd
  else none

/-- `jsonReadTypeNext` (json.c 139-208): the type, and the string without leading white space. -/
def typeNext (s : Str) : Res (Ty × Str) :=
  match skipWs s with
  | [] => .error .jsonFormat
  | c :: r =>
    match tyOf c with
    | some t => .ok (t, c :: r)
    | none => .error .jsonFormat

/-- `jsonReadTypeNextIgnoreComma` (json.c 213-234): the type after a comma, if there is one; the comma is not consumed. -/
def typeNextIC (s : Str) : Res (Ty × Str) :=
  match skipWs s with
  | 44 :: r => do
    let (t, _) ← typeNext r
    .ok (t, 44 :: r)
  | r => typeNext r

/-- The check of the key in `jsonReadPush` (json.c 291-308). -/
def pushKey (item : Item) (key haveKey : Bool) : Res Bool :=
  if key then (if haveKey then .error .assert else .ok true)
  else if item.object then (if haveKey then .ok false else .error .assert)
  else .ok haveKey

/-- The comma in `jsonReadPush` (json.c 311-320): the string and `first`. -/
def pushComma (item : Item) (key : Bool) (s : Str) : Res (Str × Bool) :=
  if item.first ∧ (item.object = false ∨ key) then
    match s with
    | 44 :: r => .ok (skipWs r, true)
    | _ => .error .jsonFormat
  else .ok (s, true)

/-- `jsonReadPush` (json.c 239-328). `jsonReadTypeNextIgnoreComma` consumed white space. -/
def push (st : Rd) (ty : Ty) (key : Bool) : Res Rd := do
  if st.complete then .error .format
  else
    let (t, s) ← typeNextIC st.json
    if t ≠ ty then .error .jsonFormat
    else
      match st.stack with
      | none =>
        if key then .error .ub
        else if ty.scalar then .ok { st with json := s, complete := true }
        else .ok { st with json := s, stack := some [⟨ty = .objectBegin, false⟩] }
      | some [] => .error .ub
      | some (item :: up) => do
        let haveKey ← pushKey item key st.key
        let (s, first) ← pushComma item key s
        let top := { item with first := first } :: up
        .ok { st with json := s, key := haveKey, stack := some (if ty.scalar then top else ⟨ty = .objectBegin, false⟩ :: top) }

/-- `jsonReadPop` (json.c 330-367). -/
def pop (st : Rd) (ty : Ty) : Res Rd := do
  if st.complete then .error .format
  else
    match st.stack with
    | some (item :: up) =>
      if item.object ≠ (ty = .objectEnd) then .error .ub
      else
        let (t, s) ← typeNext st.json
        if t ≠ ty then .error .jsonFormat
        else .ok { st with json := s, stack := some up, complete := up.isEmpty }
    | _ => .error .ub

/-- Skip one byte (`this->json++`), which is the terminator when the string is empty. -/
def skip1 (st : Rd) : Res Rd :=
  match st.json with
  | [] => .error .ub
  | _ :: r => .ok { st with json := r }

/-- `jsonReadArrayBegin` (json.c 430-443). -/
def readArrayBegin (st : Rd) : Res Rd := do skip1 (← push st .arrayBegin false)

/-- `jsonReadArrayEnd` (json.c 445-458). -/
def readArrayEnd (st : Rd) : Res Rd := do skip1 (← pop st .arrayEnd)

/-- `jsonReadObjectBegin` (json.c 759-772). -/
def readObjectBegin (st : Rd) : Res Rd := do skip1 (← push st .objectBegin false)

/-- `jsonReadObjectEnd` (json.c 774-787). -/
def readObjectEnd (st : Rd) : Res Rd := do skip1 (← pop st .objectEnd)

/-- `isdigit` -/
def isDigit (c : UInt8) : Bool := 48 ≤ c && c ≤ 57

/-- `jsonReadNumber` (json.c 389-427): the number and the rest. -/
def readNumber (s : Str) : Res (Int × Str) :=
  let signed := s.head? = some 45
  let body := if signed then s.tail else s
  let digits := body.takeWhile isDigit
  let rest := body.dropWhile isDigit
  if digits = [] then .error .jsonFormat
  else if digits.length ≥ 64 then .error .jsonFormat
  else if signed then do
    let n ← Num.toInt64Base 10 (45 :: digits)
    .ok (n, rest)
  else do
    let n ← Num.toUInt64Base 10 digits
    .ok ((n : Int), rest)

/-- `true` -/
def trueZ : Str := [116, 114, 117, 101]
/-- `false` -/
def falseZ : Str := [102, 97, 108, 115, 101]
/-- `null` -/
def nullZ : Str := [110, 117, 108, 108]

/-- `jsonReadBool` (json.c 461-487). -/
def readBool (st : Rd) : Res (Bool × Rd) := do
  let st ← push st .bool false
  if trueZ.isPrefixOf st.json then .ok (true, { st with json := st.json.drop 4 })
  else if falseZ.isPrefixOf st.json then .ok (false, { st with json := st.json.drop 5 })
  else .error .jsonFormat

/-- `jsonReadNull` (json.c 738-756). -/
def readNull (st : Rd) : Res Rd := do
  let st ← push st .null false
  if nullZ.isPrefixOf st.json then .ok { st with json := st.json.drop 4 } else .error .jsonFormat

/-- `jsonReadInt64` (json.c 518-538). -/
def readInt64 (st : Rd) : Res (Int × Rd) := do
  let st ← push st .number false
  let (n, s) ← readNumber st.json
  if n > 2 ^ 63 - 1 then .error .jsonFormat else .ok (n, { st with json := s })

/-- `jsonReadInt` (json.c 490-515). -/
def readInt (st : Rd) : Res (Int × Rd) := do
  let st ← push st .number false
  let (n, s) ← readNumber st.json
  if n > 2 ^ 31 - 1 ∨ n < -2 ^ 31 then .error .jsonFormat else .ok (n, { st with json := s })

/-- `jsonReadUInt` (json.c 1106-1126). A number with a sign is an error, even `-0`. -/
def readUInt (st : Rd) : Res (Nat × Rd) := do
  let st ← push st .number false
  let (n, s) ← readNumber st.json
  if st.json.head? = some 45 then .error .jsonFormat
  else if n > 2 ^ 32 - 1 then .error .jsonFormat else .ok (n.toNat, { st with json := s })

/-- `jsonReadUInt64` (json.c 1129-1146). -/
def readUInt64 (st : Rd) : Res (Nat × Rd) := do
  let st ← push st .number false
  let (n, s) ← readNumber st.json
  if st.json.head? = some 45 then .error .jsonFormat else .ok (n.toNat, { st with json := s })

/-- The bytes of a key, after the opening quote (json.c 560-577). -/
def keyBody : Str → Res (Str × Str)
  | [] => .error .jsonFormat
  | 34 :: r => .ok ([], r)
  | 92 :: _ => .error .jsonFormat
  | c :: r => do
    let (k, s) ← keyBody r
    .ok (c :: k, s)

/-- The colon after a key (json.c 579-585, 901-907). -/
def colon (s : Str) : Res Str :=
  match skipWs s with
  | 58 :: r => .ok r
  | _ => .error .jsonFormat

/-- `jsonReadKeyZN` (json.c 547-588). -/
def readKeyZN (st : Rd) : Res (Str × Rd) := do
  let st ← skip1 st
  let (k, s) ← keyBody st.json
  let s ← colon s
  .ok (k, { st with json := s })

/-- `jsonReadKey` (json.c 590-603). -/
def readKey (st : Rd) : Res (Str × Rd) := do readKeyZN (← push st .string true)

/-- `\u00XX` (json.c 1013-1027), after the `u`: the byte and the rest. When the string ends within the last two digits the terminator is
skipped. -/
def unicode : Str → Res (UInt8 × Str)
  | 48 :: 48 :: h1 :: h2 :: r => do
    let n ← Num.toUIntBase 16 [h1, h2]
    .ok (UInt8.ofNat n, r)
  | [48, 48, h1] => do
    let _ ← Num.toUIntBase 16 [h1]
    .error .ub
  | [48, 48] => .error .ub
  | _ => .error .jsonFormat

/-- The other escapes (json.c 981-1011). -/
def unescape (c : UInt8) : Option UInt8 :=
  if c = 34 then some 34
  else if c = 92 then some 92
  else if c = 47 then some 47
  else if c = 110 then some 10
  else if c = 114 then some 13
  else if c = 116 then some 9
  else if c = 98 then some 8
  else if c = 102 then some 12
  else none

/-- The bytes of a string, after the opening quote (json.c 962-1053). `n` limits the number of steps; each consumes a byte. -/
def strBody : Nat → Str → Res (Str × Str)
  | 0, _ => .error .jsonFormat
  | _ + 1, [] => .error .jsonFormat
  | n + 1, c :: r =>
    if c = 34 then .ok ([], r)
    else if c = 92 then
      match r with
      | [] => .error .jsonFormat
      | e :: r =>
        if e = 117 then do
          let (b, r) ← unicode r
          let (t, s) ← strBody n r
          .ok (b :: t, s)
        else
          match unescape e with
          | some b => do
            let (t, s) ← strBody n r
            .ok (b :: t, s)
          | none => .error .jsonFormat
    else do
      let (t, s) ← strBody n r
      .ok (c :: t, s)

/-- `jsonReadStr` (json.c 937-1056). Nothing is the result for `null`. -/
def readStr (st : Rd) : Res (Option Str × Rd) := do
  let (t, s) ← typeNextIC st.json
  let st := { st with json := s }
  if t = .null then do
    let st ← readNull st
    .ok (none, st)
  else do
    let st ← skip1 (← push st .string false)
    let (x, s) ← strBody (st.json.length + 1) st.json
    .ok (some x, { st with json := s })

/-- The rest of a string in `jsonReadSkipStr` (json.c 804-847), after the opening quote. After `\u` and four digits one more byte is skipped
(line 843), and after a backslash at the end of the string the terminator is. -/
def skipStrBody : Nat → Str → Res Str
  | 0, _ => .error .jsonFormat
  | _ + 1, [] => .error .jsonFormat
  | n + 1, c :: r =>
    if c = 34 then .ok r
    else if c = 92 then
      match r with
      | [] => .error .ub
      | e :: r =>
        if e = 117 then
          match r with
          | d1 :: d2 :: d3 :: d4 :: r =>
            if isDigit d1 && isDigit d2 && isDigit d3 && isDigit d4 then
              match r with
              | [] => .error .ub
              | _ :: r => skipStrBody n r
            else .error .jsonFormat
          | _ => .error .jsonFormat
        else skipStrBody n r
    else skipStrBody n r

/-- `jsonReadSkipStr` (json.c 791-850). -/
def readSkipStr (st : Rd) : Res Rd := do
  let st ← skip1 st
  let s ← skipStrBody (st.json.length + 1) st.json
  .ok { st with json := s }

mutual

/-- `jsonReadSkipRecurse` (json.c 852-920). `fuel` limits the number of steps. -/
def readSkip : Nat → Rd → Res Rd
  | 0, _ => .error .ub
  | fuel + 1, st => do
    let (t, s) ← typeNextIC st.json
    let st := { st with json := s }
    match t with
    | .bool => do
      let (_, st) ← readBool st
      .ok st
    | .null => readNull st
    | .number => do
      let st ← push st .number false
      let (_, s) ← readNumber st.json
      .ok { st with json := s }
    | .string => readSkipStr (← push st .string false)
    | .arrayBegin => readSkipItems fuel (← readArrayBegin st)
    | _ => readSkipFields fuel (← readObjectBegin st)

/-- The loop over the items of an array (json.c 883-886). -/
def readSkipItems : Nat → Rd → Res Rd
  | 0, _ => .error .ub
  | fuel + 1, st => do
    let (t, s) ← typeNextIC st.json
    let st := { st with json := s }
    if t = .arrayEnd then readArrayEnd st
    else do
      let st ← readSkip fuel st
      readSkipItems fuel st

/-- The loop over the fields of an object (json.c 895-913). -/
def readSkipFields : Nat → Rd → Res Rd
  | 0, _ => .error .ub
  | fuel + 1, st => do
    let (t, s) ← typeNextIC st.json
    let st := { st with json := s }
    if t = .objectEnd then readObjectEnd st
    else do
      let st ← readSkipStr (← push st .string true)
      let s ← colon st.json
      let st ← readSkip fuel { st with json := s }
      readSkipFields fuel st

end

/-- `jsonReadSkip` (json.c 922-934). -/
def jsonReadSkip (st : Rd) : Res Rd := readSkip (2 * st.json.length + 2) st

/-- `jsonValidate` (json.c 1271-1295). -/
def validate (json : Str) : Res Unit := do
  let st ← jsonReadSkip (readNew json)
  if skipWs st.json = [] then .ok () else .error .jsonFormat

/-- `kvPut` (src/common/type/keyValue.c 161-180). -/
def kvPut (l : List (Str × Val)) (k : Str) (v : Val) : List (Str × Val) :=
  match l with
  | [] => [(k, v)]
  | (k', v') :: r => if k' = k then (k', v) :: r else (k', v') :: kvPut r k v

mutual

/-- `jsonReadVarRecurse` (json.c 1149-1231). -/
def readVar : Nat → Rd → Res (Val × Rd)
  | 0, _ => .error .ub
  | fuel + 1, st => do
    let (t, s) ← typeNextIC st.json
    let st := { st with json := s }
    match t with
    | .bool => do
      let (b, st) ← readBool st
      .ok (.bool b, st)
    | .null => do
      let st ← readNull st
      .ok (.null, st)
    | .number => do
      let st ← push st .number false
      let (n, s) ← readNumber st.json
      .ok (.num n, { st with json := s })
    | .string => do
      let (x, st) ← readStr st
      .ok (match x with | some x => .str x | none => .null, st)
    | .arrayBegin => do
      let (l, st) ← readItems fuel (← readArrayBegin st)
      .ok (.arr l, st)
    | _ => do
      let (l, st) ← readFields fuel [] (← readObjectBegin st)
      .ok (.obj l, st)

/-- The loop over the items of an array (json.c 1196-1201). -/
def readItems : Nat → Rd → Res (List Val × Rd)
  | 0, _ => .error .ub
  | fuel + 1, st => do
    let (t, s) ← typeNextIC st.json
    let st := { st with json := s }
    if t = .arrayEnd then do
      let st ← readArrayEnd st
      .ok ([], st)
    else do
      let (v, st) ← readVar fuel st
      let (l, st) ← readItems fuel st
      .ok (v :: l, st)

/-- The loop over the fields of an object (json.c 1215-1226). -/
def readFields : Nat → List (Str × Val) → Rd → Res (List (Str × Val) × Rd)
  | 0, _, _ => .error .ub
  | fuel + 1, kv, st => do
    let (t, s) ← typeNextIC st.json
    let st := { st with json := s }
    if t = .objectEnd then do
      let st ← readObjectEnd st
      .ok (kv, st)
    else do
      let (k, st) ← readKey st
      let (v, st) ← readVar fuel st
      readFields fuel (kvPut kv k v) st

end

/-- `jsonReadVar` (json.c 1233-1243). -/
def jsonReadVar (st : Rd) : Res (Val × Rd) := readVar (2 * st.json.length + 2) st

/-- `jsonToVar` (json.c 1246-1268). -/
def jsonToVar (json : Str) : Res Val := do
  let (v, _) ← jsonReadVar (readNew json)
  .ok v

/-- `strncmp(a, b, n)` (C standard) for zero terminated strings. -/
def strncmp : Str → Str → Nat → Int
  | _, _, 0 => 0
  | [], [], _ + 1 => 0
  | [], b :: _, _ + 1 => -(b.toNat : Int)
  | a :: _, [], _ + 1 => a.toNat
  | a :: s, b :: t, n + 1 => if a = b then strncmp s t n else (a.toNat : Int) - b.toNat

/-- The loop in `jsonReadKeyExpect` (json.c 626-655). Only `keyNext.size` bytes are compared. -/
def keyExpect : Nat → Str → Rd → Res (Bool × Rd)
  | 0, _, _ => .error .ub
  | fuel + 1, key, st => do
    let (t, s) ← typeNextIC st.json
    let st := { st with json := s }
    if t = .objectEnd then .ok (false, st)
    else do
      let (k, st') ← readKey st
      let c := strncmp key k k.length
      if c = 0 then .ok (true, st')
      else if c < 0 then .ok (false, st)
      else do
        let st ← jsonReadSkip st'
        keyExpect fuel key st

/-- `jsonReadKeyExpect` (json.c 606-658). The state is restored when the key is not found (lines 647-649). -/
def readKeyExpect (key : Str) (st : Rd) : Res (Bool × Rd) :=
  keyExpect (st.json.length + 1) key { st with json := skipWs st.json }

/-- `jsonReadKeyRequire` (json.c 690-705). -/
def readKeyRequire (key : Str) (st : Rd) : Res Rd := do
  let (found, st) ← readKeyExpect key st
  if found then .ok st else .error .jsonFormat

/-! ## Writing -/

/-- `JsonWriteStack` (json.c 35-40). -/
structure WItem where
  object : Bool
  first : Bool
  keyLast : Str
  deriving DecidableEq, Repr

/-- `JsonWrite` (json.c 42-50). -/
structure Wr where
  json : Str
  stack : Option (List WItem)
  key : Bool
  complete : Bool
  deriving DecidableEq, Repr

/-- `jsonWriteNew` (json.c 1309-1326). -/
def writeNew : Wr := ⟨[], none, false, false⟩

/-- `strCmpZ` of two strings. -/
def cmpZ : Str → Str → Ordering
  | [], [] => .eq
  | [], _ :: _ => .lt
  | _ :: _, [] => .gt
  | a :: s, b :: t => if a < b then .lt else if b < a then .gt else cmpZ s t

/-- `jsonWritePush` (json.c 1331-1421). -/
def wpush (st : Wr) (ty : Ty) (key : Option Str) : Res Wr := do
  if st.complete then .error .jsonFormat
  else
    match st.stack with
    | none =>
      match key with
      | some _ => .error .ub
      | none =>
        if ty.scalar then .ok { st with complete := true }
        else .ok { st with stack := some [⟨ty = .objectBegin, false, []⟩] }
    | some [] => .error .ub
    | some (item :: up) => do
      let (item, haveKey) ←
        match key with
        | some k =>
          if st.key then .error .jsonFormat
          else if item.keyLast ≠ [] ∧ cmpZ k item.keyLast ≠ .gt then .error .jsonFormat
          else if k.length ≥ 67 then .error .assert
          else .ok ({ item with keyLast := k }, true)
        | none =>
          if item.object then (if st.key then .ok (item, false) else .error .jsonFormat) else .ok (item, st.key)
      let comma : Str := if item.first ∧ (item.object = false ∨ key.isSome) then [44] else []
      let top := { item with first := true } :: up
      .ok { st with json := st.json ++ comma, key := haveKey,
                    stack := some (if ty.scalar then top else ⟨ty = .objectBegin, false, []⟩ :: top) }

/-- `jsonWritePop` (json.c 1423-1448). -/
def wpop (st : Wr) : Res Wr :=
  match st.stack with
  | some (_ :: up) => .ok { st with stack := some up, complete := up.isEmpty }
  | _ => .error .ub

/-- Append. -/
def cat (st : Wr) (s : Str) : Wr := { st with json := st.json ++ s }

/-- `jsonWriteArrayBegin`, `jsonWriteArrayEnd`, `jsonWriteObjectBegin`, `jsonWriteObjectEnd` (json.c 1451-1479, 1637-1665). -/
def writeArrayBegin (st : Wr) : Res Wr := do .ok (cat (← wpush st .arrayBegin none) [91])
def writeArrayEnd (st : Wr) : Res Wr := do .ok (cat (← wpop st) [93])
def writeObjectBegin (st : Wr) : Res Wr := do .ok (cat (← wpush st .objectBegin none) [123])
def writeObjectEnd (st : Wr) : Res Wr := do .ok (cat (← wpop st) [125])

/-- `jsonWriteBool` (json.c 1482-1496). -/
def writeBool (st : Wr) (b : Bool) : Res Wr := do .ok (cat (← wpush st .bool none) (if b then trueZ else falseZ))

/-- `jsonWriteNull` (json.c 1620-1634). -/
def writeNull (st : Wr) : Res Wr := do .ok (cat (← wpush st .null none) nullZ)

/-- `jsonWriteInt`, `jsonWriteInt64`, `jsonWriteUInt`, `jsonWriteUInt64` (json.c 1499-1534, 1844-1879). -/
def writeNum (st : Wr) (n : Int) : Res Wr := do .ok (cat (← wpush st .number none) (Num.intToZ n))

/-- A key without the bytes that would need an escape (json.c 1569-1572). -/
def keyOk (k : Str) : Bool := k.all fun c => c != 12 && c != 92 && c != 10 && c != 13 && c != 9 && c != 8 && c != 34

/-- `jsonWriteKey` (json.c 1559-1581). -/
def writeKey (st : Wr) (k : Str) : Res Wr := do
  if keyOk k = false then .error .ub
  else .ok (cat (← wpush st .string (some k)) (34 :: k ++ [34, 58]))

/-- The escape of a byte (json.c 1694-1754). -/
def escape (c : UInt8) : Str :=
  if c = 34 then [92, 34]
  else if c = 92 then [92, 92]
  else if c = 10 then [92, 110]
  else if c = 13 then [92, 114]
  else if c = 9 then [92, 116]
  else if c = 8 then [92, 98]
  else if c = 12 then [92, 102]
  else [c]

/-- `jsonWriteStr` (json.c 1668-1766). -/
def writeStr (st : Wr) (s : Str) : Res Wr := do .ok (cat (← wpush st .string none) (34 :: s.flatMap escape ++ [34]))

/-- Put a field where its key belongs. -/
def insertField (k : Str) (v : Val) : List (Str × Val) → List (Str × Val)
  | [] => [(k, v)]
  | (k', v') :: r => if cmpZ k k' = .gt then (k', v') :: insertField k v r else (k, v) :: (k', v') :: r

/-- Fields in the order of their keys: `strLstSort` of the keys, then `kvGet` for each (json.c 1919-1931). -/
def sortFields (l : List (Str × Val)) : List (Str × Val) := l.foldr (fun f r => insertField f.1 f.2 r) []

mutual

/-- All objects in the order of the keys. The order is independent of the state of the writer, so it is done before writing. -/
def sorted : Val → Val
  | .arr l => .arr (sortedItems l)
  | .obj l => .obj (sortFields (sortedFields l))
  | v => v

def sortedItems : List Val → List Val
  | [] => []
  | v :: l => sorted v :: sortedItems l

def sortedFields : List (Str × Val) → List (Str × Val)
  | [] => []
  | (k, v) :: l => (k, sorted v) :: sortedFields l

end

mutual

/-- `jsonWriteVarRecurse` (json.c 1882-1978) for objects with fields in order. -/
def writeVal (st : Wr) : Val → Res Wr
  | .null => writeNull st
  | .bool b => writeBool st b
  | .num n => writeNum st n
  | .str s => writeStr st s
  | .arr l => do writeArrayEnd (← writeItems (← writeArrayBegin st) l)
  | .obj l => do writeObjectEnd (← writeFields (← writeObjectBegin st) l)

def writeItems (st : Wr) : List Val → Res Wr
  | [] => .ok st
  | v :: l => do writeItems (← writeVal st v) l

def writeFields (st : Wr) : List (Str × Val) → Res Wr
  | [] => .ok st
  | (k, v) :: l => do writeFields (← writeVal (← writeKey st k) v) l

end

/-- `jsonWriteVar` (json.c 1980-1993). -/
def writeVar (st : Wr) (v : Val) : Res Wr := writeVal st (sorted v)

/-- `jsonFromVar` (json.c 2026-2042). -/
def jsonFromVar (v : Val) : Res Str := do
  let st ← writeVar writeNew v
  .ok st.json

end Verif.Json
