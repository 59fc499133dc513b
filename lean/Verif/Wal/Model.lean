import Verif.Num.Model

/-! # Model of WAL segment names and positions (src/command/archive/common.c, src/postgres/interface.c)

Segment names are lists of characters. 32-bit unsigned arithmetic is `% 2 ^ 32` on natural numbers. -/

namespace Verif.Wal

open Verif.Num

/-- `strNewFmt("%08X%08X%08X", timeline, major, minor)`. -/
def segFmt (timeline major minor : Nat) : List UInt8 :=
  fmtPad 8 16 true timeline ++ fmtPad 8 16 true major ++ fmtPad 8 16 true minor

/-- `[0-F]` of `WAL_SEGMENT_PREFIX_REGEXP` (src/command/archive/common.h:42): in the "C" locale a range is by
character code, so it contains the characters between `9` and `A` too. -/
def rangeChar (c : UInt8) : Bool := 0x30 ≤ c && c ≤ 0x46

/-- `WAL_SEGMENT_REGEXP` (src/command/archive/common.h:45) matches. -/
def matchSegment (s : List UInt8) : Bool := s.length == 24 && s.all rangeChar

/-- `walIsSegment` (src/command/archive/common.c:327-349): `WAL_SEGMENT_PARTIAL_REGEXP`. -/
def isSegment (s : List UInt8) : Bool :=
  (s.take 24).length == 24 && (s.take 24).all rangeChar &&
    (s.drop 24 == [] || s.drop 24 == [0x2e, 0x70, 0x61, 0x72, 0x74, 0x69, 0x61, 0x6c])

/-- `(uint32_t)strtol(z, NULL, 16)` where `long` has 64 bits: without a number the result is 0, an out of range
one (not possible with 8 characters) is clamped. -/
def strtol32 (s : List UInt8) : Nat :=
  match strto 16 s with
  | none => 0
  | some (neg, v, _) =>
    if neg then (2 ^ 64 - min v (2 ^ 63)) % 2 ^ 32 else min v (2 ^ 63 - 1) % 2 ^ 32

/-- `pgTimelineFromWalSegment`, src/postgres/interface.c:624-636. -/
def timelineOf (s : List UInt8) : Res Nat :=
  if s.length ≠ 24 then .error .assert else toUIntBase 16 (s.take 8)

/-- Lines 376-382 of src/command/archive/common.c: the next major and minor. -/
def nextPart (size major minor : Nat) : Nat × Nat :=
  let minor := (minor + 1) % 2 ^ 32
  if minor > (2 ^ 32 - 1) / size then ((major + 1) % 2 ^ 32, 0) else (major, minor)

/-- `walSegmentNext`, src/command/archive/common.c:352-387. -/
def next (s : List UInt8) (size : Nat) : Res (List UInt8) :=
  if s.length ≠ 24 ∨ size = 0 then .error .assert
  else if (2 ^ 32 - 1) % size ≠ size - 1 then .error .assert
  else do
    let timeline ← timelineOf s
    let major := strtol32 ((s.drop 8).take 8)
    let minor := strtol32 ((s.drop 16).take 8)
    let p := nextPart size major minor
    pure (segFmt timeline p.1 p.2)

/-- The loop of `walSegmentRange`, src/command/archive/common.c:410-418. -/
def rangeLoop (size : Nat) : (n : Nat) → (current : List UInt8) → Res (List (List UInt8))
  | 0, _ => .ok []
  | n + 1, current => do
    let nx ← next current size
    let rest ← rangeLoop size n nx
    pure (nx :: rest)

/-- `walSegmentRange`, src/command/archive/common.c:390-424. -/
def range (begin : List UInt8) (size n : Nat) : Res (List (List UInt8)) :=
  if n = 0 then .error .assert
  else do
    let rest ← rangeLoop size (n - 1) begin
    pure (begin :: rest)

/-- `pgLsnToWalSegment`, src/postgres/interface.c:611-622 (`lsn` is a `uint64_t`). -/
def lsnToSegment (timeline lsn size : Nat) : List UInt8 :=
  segFmt timeline (lsn / 2 ^ 32 % 2 ^ 32) (lsn % 2 ^ 32 / size)

/-- The loop of `pgLsnRangeToWalSegmentList`, src/postgres/interface.c:670-681. The C loop has no bound; `fuel`
is a number of iterations, `none` means that they do not suffice. -/
def lsnRangeLoop (timeline minorPerMajor stopMajor stopMinor : Nat) :
    (fuel : Nat) → (major minor : Nat) → Option (List (List UInt8))
  | 0, major, minor => if major = stopMajor ∧ minor = stopMinor then some [] else none
  | fuel + 1, major, minor =>
    if major = stopMajor ∧ minor = stopMinor then some []
    else
      let minor := (minor + 1) % 2 ^ 32
      let p := if minor > minorPerMajor then ((major + 1) % 2 ^ 32, 0) else (major, minor)
      (lsnRangeLoop timeline minorPerMajor stopMajor stopMinor fuel p.1 p.2).map (segFmt timeline p.1 p.2 :: ·)

/-- `pgLsnRangeToWalSegmentList`, src/postgres/interface.c:638-686. -/
def lsnRange (fuel timeline lsnStart lsnStop size : Nat) : Res (Option (List (List UInt8))) :=
  if timeline = 0 ∨ lsnStart > lsnStop ∨ size = 0 then .error .assert
  else
    let startMajor := lsnStart / 2 ^ 32 % 2 ^ 32
    let startMinor := lsnStart % 2 ^ 32 / size
    let stopMajor := lsnStop / 2 ^ 32 % 2 ^ 32
    let stopMinor := lsnStop % 2 ^ 32 / size
    .ok ((lsnRangeLoop timeline ((2 ^ 32 - 1) / size) stopMajor stopMinor fuel startMajor startMinor).map
      (segFmt timeline startMajor startMinor :: ·))

/-- `strLstNewSplitZ` with a one character delimiter, src/common/type/stringList.c:34-76. -/
def split (d : UInt8) : List UInt8 → List (List UInt8)
  | [] => [[]]
  | c :: rest =>
    if c = d then [] :: split d rest
    else match split d rest with
      | [] => [[c]]
      | x :: xs => (c :: x) :: xs

/-- `pgLsnFromStr`, src/postgres/interface.c:577-598: two parts around `/`; the sum is modulo 2^64. -/
def lsnFromStr (s : List UInt8) : Res Nat :=
  match split 0x2f s with
  | [a, b] => do
    let x ← toUInt64Base 16 a
    let y ← toUInt64Base 16 b
    pure ((x * 2 ^ 32 + y) % 2 ^ 64)
  | _ => .error .format

/-- `pgLsnToStr`, src/postgres/interface.c:600-608. -/
def lsnToStr (lsn : Nat) : List UInt8 :=
  fmt 16 false (lsn / 2 ^ 32 % 2 ^ 32) ++ [0x2f] ++ fmt 16 false (lsn % 2 ^ 32)

end Verif.Wal
