import Verif.Basic

/-!
# Page checksums

Model of `pgPageChecksum` (src/postgres/interface/page.c), the filter that verifies the pages of a relation
(src/command/backup/pageChecksum.c) and the list of pages that is stored in the manifest (src/command/backup/process.c.inc 1-95).

Words of a page are little endian. Block numbers are natural numbers; they stand for `unsigned int` while a relation has less than
2^32 - 1 blocks, which is PostgreSQL's limit. Only the checksum mixes in the block number as a word. `pageSize` stands for any of the page
sizes 1024, 2048, …, 32768.
-/

namespace Verif.Backup.Page

/-! ## The checksum (page.c) -/

/-- A word of 16 bits at an offset of the page. -/
def word16 (page : List UInt8) (i : Nat) : UInt16 := (page.getD i 0).toUInt16 ||| ((page.getD (i + 1) 0).toUInt16 <<< 8)

/-- The words of 32 bits of the page. -/
def words : List UInt8 → List UInt32
  | a :: b :: c :: d :: rest =>
    (a.toUInt32 ||| (b.toUInt32 <<< 8) ||| (c.toUInt32 <<< 16) ||| (d.toUInt32 <<< 24)) :: words rest
  | _ => []

/-- `CHECKSUM_ROUND` (page.c 22-27). -/
def round (sum value : UInt32) : UInt32 :=
  let tmp : UInt32 := sum ^^^ value
  (tmp * (16777619 : UInt32)) ^^^ (tmp >>> 17)

/-- The initial sums (page.c 71-77). -/
def sumInit : List UInt32 :=
  [0x5b1f36e9, 0xb8525960, 0x02ab50aa, 0x1de66d2a, 0x79ff467a, 0x9bb9f8a3, 0x217e7cd2, 0x83e13d2c,
   0xf8d4474f, 0xe39eb970, 0x42c6ae16, 0x993216fa, 0x7b093b5d, 0x98daff3c, 0xf718902a, 0x0b1c9cdb,
   0xe58f764b, 0x187636bc, 0x5d7b3bb1, 0xe73de7de, 0x92bec979, 0xcca6c0b2, 0x304a0979, 0x85aa43d4,
   0x783125bb, 0x6ca8eaa2, 0xe407eac6, 0x4b5cfc3e, 0x9fbf8c76, 0x15ca20be, 0xf2ca9fd3, 0x959bd756]

/-- One pass of the outer loop of `CHECKSUM_CASE` (page.c 32-34): one round for each of the sums with the next words. -/
def row (sums : List UInt32) (data : List UInt32) : List UInt32 := List.zipWith round sums data

/-- The loops of `CHECKSUM_CASE`, with `n` passes of the outer loop. -/
def rows : Nat → List UInt32 → List UInt32 → List UInt32
  | 0, sums, _ => sums
  | n + 1, sums, data => rows n (row sums (data.take 32)) (data.drop 32)

/-- `pd_checksum = 0` (page.c 68). -/
def clear (page : List UInt8) : List UInt8 := page.set 8 0 |>.set 9 0

/-- `pgPageChecksum` (page.c 57-113). -/
def pageChecksum (page : List UInt8) (blockNo : UInt32) (pageSize : Nat) : UInt16 :=
  let sums := rows (pageSize / 128) sumInit (words (clear page))
  let sums := rows 2 sums (List.replicate 64 0)
  let result := sums.foldl (· ^^^ ·) 0
  ((result ^^^ blockNo) % 65535 + 1).toUInt16

/-! ## The filter (pageChecksum.c) -/

/-- What does not change in `PageChecksum` (pageChecksum.c 19-32). `retry` is what a page of the file has when it is read again from an
offset; each page is read again once at most. -/
structure Conf where
  segmentPageTotal : Nat
  pageSize : Nat
  headerCheck : Bool
  retry : Nat → List UInt8

/-- The rest of `PageChecksum`. `error` has the block numbers of the error list, `[]` when there is no list. -/
structure St where
  pageNoOffset : Nat
  valid : Bool
  align : Bool
  error : List Nat
  deriving DecidableEq, Repr

/-- A page that is complete is an error (pageChecksum.c 101-156). -/
def pageBad (c : Conf) (page : List UInt8) (blockNo : Nat) : Bool :=
  let zero := page.all (· == 0)
  let new := (c.headerCheck && word16 page 14 == 0) || (!c.headerCheck && word16 page 8 == 0)
  if new && zero then false
  else if !new && word16 page 8 == pageChecksum page (UInt32.ofNat blockNo) c.pageSize then false
  else c.retry (blockNo % c.segmentPageTotal * c.pageSize) == page

/-- The page at an index of the input. -/
def pageAt (c : Conf) (input : List UInt8) (i : Nat) : List UInt8 := (input.drop (i * c.pageSize)).take c.pageSize

/-- `pageChecksumProcess` (pageChecksum.c 52-179). -/
def process (c : Conf) (st : St) (input : List UInt8) : Res St :=
  let remainder := input.length % c.pageSize
  if remainder ≠ 0 ∧ !st.align then .error .assert
  else
    let pageTotal := input.length / c.pageSize + if remainder ≥ 512 then 1 else 0
    let align := st.align && remainder == 0
    let valid := st.valid && !(remainder != 0 && decide (remainder < 512))
    if valid then
      .ok { pageNoOffset := st.pageNoOffset + pageTotal
            valid := valid
            align := align
            error := st.error ++ ((List.range pageTotal).filter fun i =>
              if align || decide (i < pageTotal - 1) then pageBad c (pageAt c input i) (st.pageNoOffset + i) else true).map
                (st.pageNoOffset + ·) }
    else .ok { st with align := align, valid := valid }

/-- A new filter (pageChecksum.c 228-256). -/
def init (segmentNo segmentPageTotal : Nat) : St :=
  { pageNoOffset := segmentNo * segmentPageTotal, valid := true, align := true, error := [] }

/-- All buffers of a file. -/
def processAll (c : Conf) : St → List (List UInt8) → Res St
  | st, [] => .ok st
  | st, b :: rest =>
    match process c st b with
    | .error e => .error e
    | .ok st' => processAll c st' rest

/-- `pageChecksumResult` (pageChecksum.c 185-224): the error list, `valid` and `align`. -/
def result (st : St) : Option (List Nat) × Bool × Bool :=
  if st.error ≠ [] then (some st.error, false, st.align) else (none, st.valid, st.align)

/-! ## The list in the manifest (process.c.inc) -/

/-- An element of the list: a page, or the first and last page of a range. -/
inductive Item where
  | page (n : Nat)
  | range (first last : Nat)
  deriving DecidableEq, Repr

/-- `backupJobResultPageChecksumOut` (process.c.inc 5-31). -/
def out (pageBegin pageEnd : Nat) : Item := if pageBegin = pageEnd then .page pageBegin else .range pageBegin pageEnd

/-- The loop (process.c.inc 55-83) after the first page, and the output of the last range (process.c.inc 89). -/
def combineFrom : Nat → Nat → List Nat → List Item
  | pageBegin, pageEnd, [] => [out pageBegin pageEnd]
  | pageBegin, pageEnd, pageId :: rest =>
    if pageId = pageEnd + 1 then combineFrom pageBegin pageId rest
    else out pageBegin pageEnd :: combineFrom pageId pageId rest

/-- `backupJobResultPageChecksum` (process.c.inc 33-95). -/
def combine : Option (List Nat) → Res (Option (List Item))
  | none => .ok none
  | some [] => .error .format
  | some (p :: rest) => .ok (some (combineFrom p p rest))

end Verif.Backup.Page
