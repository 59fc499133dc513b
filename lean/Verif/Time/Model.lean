import Verif.Basic

/-! # Model of date and time conversion (src/common/time.c, src/common/type/convert.c)

`int` values are integers; an operation whose result does not fit 32 bits is undefined behaviour (`Err.ub`).
`time_t` is assumed to hold 64 bits. -/

namespace Verif.Time

/-- The result of a signed 32-bit operation. -/
def int32 (x : Int) : Res Int := if -2 ^ 31 ≤ x ∧ x < 2 ^ 31 then .ok x else .error .ub

/-- `yearIsLeap`, src/common/time.c:135-143. -/
def yearIsLeap (year : Int) : Bool := (year % 4 == 0 && year % 100 != 0) || year % 400 == 0

/-- `daysPerMonth`, src/common/time.c:61-65. -/
def daysPerMonth (leap : Bool) : List Int :=
  if leap then [31, 29, 31, 30, 31, 30, 31, 31, 30, 31, 30, 31]
  else [31, 28, 31, 30, 31, 30, 31, 31, 30, 31, 30, 31]

/-- `datePartsValid`, src/common/time.c:52-71. -/
def datePartsValid (year month day : Int) : Res Unit :=
  if year ≥ 1970 ∧ month > 0 ∧ month ≤ 12 ∧ day > 0 then
    match (daysPerMonth (yearIsLeap year))[(month - 1).toNat]? with
    | none => .error .ub
    | some days => if day ≤ days then .ok () else .error .format
  else .error .format

/-- `timePartsValid`, src/common/time.c:74-87. -/
def timePartsValid (hour minute second : Int) : Res Unit :=
  if hour ≥ 0 ∧ hour < 24 ∧ minute ≥ 0 ∧ minute < 60 ∧ second ≥ 0 ∧ second < 60 then .ok () else .error .format

/-- `tzPartsValid`, src/common/time.c:90-108. The remainder is that of C, which has the sign of the dividend. -/
def tzPartsValid (tzHour tzMinute : Int) : Res Unit :=
  if ((tzHour > -12 ∧ tzHour < 14) ∧ tzMinute.tmod 15 = 0) ∨ (tzHour = -12 ∧ tzMinute = 0) ∨
      (tzHour = 14 ∧ tzMinute = 0) then .ok () else .error .format

/-- `tzOffsetSeconds`, src/common/time.c:111-132. -/
def tzOffsetSeconds (tzHour tzMinute : Int) : Res Int := do
  tzPartsValid tzHour tzMinute
  let sign : Int := if tzHour < 0 then -1 else 1
  let tzHour := if tzHour < 0 then sign * tzHour else tzHour
  let hourPart ← int32 (tzHour * 3600)
  let minutePart ← int32 (tzMinute * 60)
  let sum ← int32 (hourPart + minutePart)
  int32 (sign * sum)

/-- `cumulativeDaysPerMonth`, src/common/time.c:157-161. -/
def cumulativeDays (leap : Bool) : List Int :=
  if leap then [0, 31, 60, 91, 121, 152, 182, 213, 244, 274, 305, 335]
  else [0, 31, 59, 90, 120, 151, 181, 212, 243, 273, 304, 334]

/-- `dayOfYear`, src/common/time.c:146-164. -/
def dayOfYear (year month day : Int) : Res Int := do
  datePartsValid year month day
  match (cumulativeDays (yearIsLeap year))[(month - 1).toNat]? with
  | none => .error .ub
  | some c => int32 (c + day)

/-- `epochFromParts`, src/common/time.c:167-189. Each operation is done with 32-bit integers from left to right as
in the C expression; only the final value is widened to `time_t`. -/
def epochFromParts (year month day hour minute second tzOffset : Int) : Res Int := do
  timePartsValid hour minute second
  let doy ← dayOfYear year month day
  let a ← int32 (-1 * tzOffset)
  let a ← int32 (a + second)
  let b ← int32 (minute * 60)
  let a ← int32 (a + b)
  let b ← int32 (hour * 3600)
  let a ← int32 (a + b)
  let b ← int32 ((doy - 1) * 86400)
  let a ← int32 (a + b)
  let b ← int32 ((year - 1900 - 70) * 31536000)
  let a ← int32 (a + b)
  let b ← int32 ((year - 1900 - 69).tdiv 4 * 86400)
  let a ← int32 (a + b)
  let b ← int32 ((year - 1900 - 1).tdiv 100 * 86400)
  let a ← int32 (a - b)
  let b ← int32 ((year - 1900 + 299).tdiv 400 * 86400)
  int32 (a + b)

/-! ## Text -/

/-- `isdigit` in the "C" locale (a byte with the high bit set is not a digit). -/
def isDigit (c : UInt8) : Bool := 0x30 ≤ c && c ≤ 0x39

/-- The loop of `cvtZNToTimePart` (src/common/type/convert.c:581-597): from the last character to the first with
growing powers. At most four digits are read so that there is no overflow. -/
def timePartLoop : (rev : List UInt8) → (result power : Int) → Res Int
  | [], result, _ => .ok result
  | c :: rest, result, power =>
    if isDigit c then timePartLoop rest (result + ((c.toNat : Int) - 0x30) * power) (power * 10)
    else .error .format

/-- `cvtZNToTimePart` of the `size` characters of `s` at `idx`; reading behind the end of the text is undefined. -/
def timePart (s : List UInt8) (idx size : Nat) : Res Int :=
  if s.length < idx + size then .error .ub
  else timePartLoop ((s.drop idx).take size).reverse 0 1

/-- Lines 624-633 of src/common/type/convert.c: skip a fraction of a second. -/
def skipFraction (part : List UInt8) : List UInt8 :=
  match part with
  | c :: rest => if (c == 0x2e || c == 0x2c) && part.length ≥ 2 then rest.dropWhile isDigit else part
  | [] => []

/-- The zone of lines 635-656 of src/common/type/convert.c: hours, minutes (`none` when no zone is present). -/
def zone (part : List UInt8) : Res (Option (Int × Int)) :=
  match part with
  | [] => .ok none
  | c :: rest =>
    if (c == 0x2b || c == 0x2d) && part.length ≥ 3 then do
      let h ← timePart rest 0 2
      let offsetHour := h * (if c == 0x2d then -1 else 1)
      let part := rest.drop 2
      let part := if part.head? = some 0x3a then part.drop 1 else part
      if part.length = 2 then do
        let offsetMinute ← timePart part 0 2
        pure (some (offsetHour, offsetMinute))
      else if part ≠ [] then .error .format
      else pure (some (offsetHour, 0))
    else .error .format

/-- `cvtZToTime`, src/common/type/convert.c:599-681. `mktime` is the conversion of the C library from local time. -/
def timeFromText (mktime : Int → Int → Int → Int → Int → Int → Int) (time : List UInt8) : Res Int :=
  if time.length < 19 ∨ time[4]? ≠ some 0x2d ∨ time[7]? ≠ some 0x2d ∨ time[10]? ≠ some 0x20 ∨
      time[13]? ≠ some 0x3a ∨ time[16]? ≠ some 0x3a then .error .format
  else do
    let year ← timePart time 0 4
    let month ← timePart time 5 2
    let day ← timePart time 8 2
    let hour ← timePart time 11 2
    let minute ← timePart time 14 2
    let second ← timePart time 17 2
    datePartsValid year month day
    timePartsValid hour minute second
    match ← zone (skipFraction (time.drop 19)) with
    | some (offsetHour, offsetMinute) => do
      let offset ← tzOffsetSeconds offsetHour offsetMinute
      epochFromParts year month day hour minute second offset
    | none => pure (mktime year month day hour minute second)

end Verif.Time
