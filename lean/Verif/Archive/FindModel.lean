import Verif.Common.Str
import Verif.Wal.Model

/-! # Model of finding a WAL segment in the archive

src/command/archive/find.c. Regular expressions are modelled by functions. A segment name is taken literally in the expression
(names that PostgreSQL makes are hexadecimal, so have no special characters). -/

namespace Verif.Archive

/-- `.partial`, `WAL_SEGMENT_PARTIAL_EXT` (src/command/archive/common.h:39). -/
def partialExt : Str := [0x2e, 0x70, 0x61, 0x72, 0x74, 0x69, 0x61, 0x6c]

/-- `COMPRESS_TYPE_REGEXP`, src/common/compress/helper.h:37: `.gz`, `.lz4`, `.zst`, `.xz`, `.bz2`. -/
def compressExts : List Str :=
  [[0x2e, 0x67, 0x7a], [0x2e, 0x6c, 0x7a, 0x34], [0x2e, 0x7a, 0x73, 0x74], [0x2e, 0x78, 0x7a], [0x2e, 0x62, 0x7a, 0x32]]

/-- `[0-f]` of the expression: a range is by character code. -/
def hashChar (c : UInt8) : Bool := 0x30 ≤ c && c ≤ 0x66

/-- `walIsPartial`, src/command/archive/common.c:251-262, on a segment. -/
def isPartial (seg : Str) : Bool := seg.drop 24 == partialExt

/-- The expression after the name of the segment, `-[0-f]{40}` and an optional compression extension. -/
def matchRest (s : Str) : Bool :=
  s.head? == some 0x2d && ((s.drop 1).take 40).length == 40 && ((s.drop 1).take 40).all hashChar &&
    (s.drop 41 == [] || compressExts.contains (s.drop 41))

/-- The expression of lines 84-86 matches a file. The point of `.partial` is not escaped so it matches any character. -/
def matchFile (seg name : Str) : Bool :=
  name.take 24 == seg.take 24 &&
    (if isPartial seg then ((name.drop 24).take 1).length == 1 && (name.drop 25).take 7 == partialExt.drop 1 && matchRest (name.drop 32)
    else matchRest (name.drop 24))

/-- `WalSegmentFind`, lines 18-26 (storage and archive id are in the listing). -/
structure Find where
  single : Bool
  timeout : Nat
  pre : Option Str
  list : Option (List Str)

/-- `walSegmentFindNew`, lines 37-63. -/
def Find.new (single : Bool) (timeout : Nat) : Find := ⟨single, timeout, none, none⟩

/-- Get a list of WAL segments if there is none for the directory, lines 91-111. -/
def Find.load (f : Find) (listing : Str → List Str) (seg : Str) : Find :=
  if f.list = none ∨ f.pre ≠ some (seg.take 16) then
    { f with
      pre := some (seg.take 16)
      list := some (sortAsc (if f.single then (listing (seg.take 16)).filter (matchFile seg) else listing (seg.take 16))) }
  else f

/-- Clear the list for next find, lines 177-182. -/
def Find.clear (f : Find) (list : List Str) : Find :=
  { f with list := if f.single = true ∨ list = [] then none else some list }

/-- The segment in the list, lines 113-182. -/
def Find.look (f : Find) (seg : Str) : Find × Res (Option Str) :=
  let list := f.list.getD []
  -- Remove list items that do not match, lines 126-128
  let list := if f.single then list else list.dropWhile fun x => !matchFile seg x
  let found := if f.single then list else list.takeWhile (matchFile seg)
  if found.length > 1 then ({ f with list := none }, .error .archiveDuplicate)
  else
    -- Remove matching entries, lines 167-174
    let list := if f.single then list else list.dropWhile (matchFile seg)
    (f.clear list, .ok found.head?)

/-- The loop, lines 89-184, with what is in the storage in each pass. There is one pass more than `waitMore` returns true. -/
def Find.loop (f : Find) (seg : Str) : List (Str → List Str) → Find × Res (Option Str)
  | [] => (f, .ok none)
  | listing :: later =>
    match (f.load listing seg).look seg with
    | (f, .error e) => (f, .error e)
    | (f, .ok (some file)) => (f, .ok (some file))
    | (f, .ok none) => f.loop seg later

/-- `walSegmentFind`, lines 66-201. -/
def Find.find (f : Find) (seg : Str) (listings : List (Str → List Str)) : Find × Res (Option Str) :=
  match f.loop seg listings with
  | (f', .ok none) => (f', if f.timeout ≠ 0 then .error .archiveTimeout else .ok none)
  | r => r

/-- `walSegmentFindOne`, lines 204-230. -/
def findOne (timeout : Nat) (seg : Str) (listings : List (Str → List Str)) : Res (Option Str) :=
  ((Find.new true timeout).find seg listings).2

/-- Lookups one after the other, as in the check of WAL after a backup (src/command/backup/complete.c.inc). Each is given what is
in the storage in each of its passes. -/
def Find.findAll (f : Find) : List (Str × List (Str → List Str)) → List (Res (Option Str))
  | [] => []
  | (seg, listings) :: rest =>
    let (f, r) := f.find seg listings
    r :: f.findAll rest

end Verif.Archive
