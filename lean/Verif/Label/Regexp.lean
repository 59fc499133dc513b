import Verif.Common.Str

/-! # Model of the backup label expressions (src/command/backup/common.c) -/

namespace Verif.Label

/-- `[0-9]`. -/
def isDigit (c : UInt8) : Bool := 0x30 ≤ c && c ≤ 0x39

/-- `DATE_TIME_REGEX` (src/command/backup/common.h:21) matches exactly. -/
def isDateTime (s : Str) : Bool :=
  s.length == 15 && (s.take 8).all isDigit && (s.drop 8).head? == some 0x2d && (s.drop 9).all isDigit

/-- The label of a full backup: `^` DATE_TIME_REGEX `F$`. -/
def isFull (s : Str) : Bool := s.length == 16 && isDateTime (s.take 15) && s.drop 15 == [0x46]

/-- The label of a dependent backup: the label of a full backup, `_`, DATE_TIME_REGEX and `kind` (`D` or `I`). -/
def isDependent (kind : UInt8) (s : Str) : Bool :=
  s.length == 33 && isFull (s.take 16) && (s.drop 16).head? == some 0x5f && isDateTime ((s.drop 17).take 15) &&
    s.drop 32 == [kind]

def isDiff : Str → Bool := isDependent 0x44

def isIncr : Str → Bool := isDependent 0x49

/-- `backupRegExp` (src/command/backup/common.c:82-142) with the end anchor matches. Without diff and incr only the
full label is matched; `full` makes the dependent part optional. -/
def matchRegExp (full diff incr : Bool) (s : Str) : Bool :=
  (full && isFull s) || (diff && isDiff s) || (incr && isIncr s)

end Verif.Label
