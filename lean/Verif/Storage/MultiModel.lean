import Verif.Common.Str
import Verif.Basic

/-! # Model of reading parts of many files as one (src/storage/readMulti.c 27-401)

Files are functions from names to contents, which do not change while they are read. Offsets and limits are natural numbers, so the sums of the
code are assumed not to overflow. A read of the storage (`StorageRead`) is the list of the bytes it still has to deliver. What `ioRead` does
with a read is: deliver until the buffer is full or there is nothing more. When a buffer was filled with the last bytes the read may or may not
know that it is at the end: this is decided by an argument of `read`. -/

namespace Verif.Storage

open Verif

/-- `StorageReadMultiRange` (66-72). -/
structure Range where
  offset : Nat
  limit : Nat
  deriving DecidableEq

/-- `StorageReadMultiRequest` (52-63), without the flags for the storage. `limit` is `none` for `STORAGE_READ_MULTI_NO_LIMIT` and `ranges` for a
list that is not allocated. -/
structure Req where
  file : Str
  offset : Nat
  limit : Option Nat
  ranges : Option (List Range)
  deriving DecidableEq

/-- `StorageReadMultiDefault` (29-41). `rangeRead` is of the first request: no other one has been read. -/
structure St where
  reqs : List Req
  queue : List Str
  rangeRead : Nat
  eof : Bool
  deriving DecidableEq

/-- A new one (375-401). -/
def St.new : St := ⟨[], [], 0, false⟩

/-- Part of a file from an offset. -/
def part (data : Str) (offset : Nat) : Option Nat → Str
  | none => data.drop offset
  | some l => (data.drop offset).take l

/-- Open a read (105-109). The file has to exist. -/
def openRead (files : Str → Option Str) (r : Req) : Res Str :=
  match files r.file with
  | none => .error .fileMissing
  | some data => .ok (part data r.offset r.limit)

/-- The loop of `storageReadMultiDefaultQueue` over the requests that are not in the queue yet (98-118). -/
def fill (files : Str → Option Str) (queueMax : Nat) : List Req → List Str → Res (List Str)
  | [], q => .ok q
  | r :: rs, q =>
    if q.length < queueMax then
      match openRead files r with
      | .error e => .error e
      | .ok s => fill files queueMax rs (q ++ [s])
    else .ok q

/-- `storageReadMultiDefaultQueue` (82-126). -/
def queueMore (files : Str → Option Str) (queueMax : Nat) (prelim : Bool) (st : St) : Res St :=
  match fill files queueMax ((if prelim then st.reqs.dropLast else st.reqs).drop st.queue.length) st.queue with
  | .error e => .error e
  | .ok q => .ok { st with queue := q, eof := st.eof || (q.isEmpty && !prelim) }

/-- The ranges of a request after one with this offset and limit is added to it (307-332). -/
def addRange (p : Req) (pl offset l : Nat) : Option (List Range) :=
  if offset ≠ p.offset + pl then some (p.ranges.getD [⟨p.offset, pl⟩] ++ [⟨offset, l⟩])
  else
    match p.ranges with
    | none => none
    | some rs =>
      match rs.getLast? with
      | none => some rs
      | some last => some (rs.dropLast ++ [⟨last.offset, offset - last.offset + l⟩])

/-- Add a request that is not combined with the last one (341-358). -/
def addNew (files : Str → Option Str) (queueMax : Nat) (st : St) (file : Str) (offset : Nat) (limit : Option Nat) : Res St :=
  queueMore files queueMax true { st with reqs := st.reqs ++ [⟨file, offset, limit, none⟩] }

/-- `storageReadMultiDefaultAdd` (271-361). -/
def add (files : Str → Option Str) (queueMax readOver : Nat) (st : St) (file : Str) (offset : Nat) (limit : Option Nat) : Res St :=
  match st.reqs.getLast? with
  | none => addNew files queueMax st file offset limit
  | some p =>
    if p.file = file then
      match p.limit, limit with
      | some pl, some l =>
        if offset < p.offset + pl then .error .assert
        else if offset - (p.offset + pl) ≤ readOver then
          .ok { st with reqs := st.reqs.dropLast ++ [⟨p.file, p.offset, some (offset - p.offset + l), addRange p pl offset l⟩] }
        else addNew files queueMax st file offset limit
      | _, _ => .error .assert
    else addNew files queueMax st file offset limit

/-- The space for a read (180-189): not into unused bytes. -/
def space (r : Req) (rangeRead cap : Nat) : Nat :=
  match r.ranges with
  | some (a :: _ :: _) => min cap (a.limit - rangeRead)
  | _ => cap

/-- The range that is complete is removed and what follows it is read over (194-212): the bytes that remain, the request and `rangeRead`. -/
def advance (r : Req) (rangeRead : Nat) (s : Str) : Str × Req × Nat :=
  match r.ranges with
  | some (a :: b :: more) =>
    if a.limit - rangeRead = 0 then (s.drop (b.offset - (a.offset + a.limit)), { r with ranges := some (b :: more) }, 0)
    else (s, r, rangeRead)
  | some _ => (s, r, rangeRead)
  | none => (s, r, 0)

/-- `storageReadMultiDefault` (154-229): `cap` is the size of the buffer. `known` is set when the read knows that it is at the end although the
buffer was filled. -/
def read (files : Str → Option Str) (queueMax : Nat) (st : St) (cap : Nat) (known : Bool) : Res (Str × St) :=
  match st.reqs, st.queue with
  | r :: rs, s :: q =>
    let n := space r st.rangeRead cap
    let out := s.take n
    let next := advance r (st.rangeRead + out.length) (s.drop n)
    if next.1 = [] ∧ (known = true ∨ out.length < n) then
      match queueMore files queueMax false { st with reqs := rs, queue := q, rangeRead := 0 } with
      | .error e => .error e
      | .ok st => .ok (out, st)
    else .ok (out, { st with reqs := next.2.1 :: rs, queue := next.1 :: q, rangeRead := next.2.2 })
  | _, _ => .error .assert

/-- A file to be added. -/
structure Add where
  file : Str
  offset : Nat
  limit : Option Nat
  deriving DecidableEq

def addAll (files : Str → Option Str) (queueMax readOver : Nat) : St → List Add → Res St
  | st, [] => .ok st
  | st, a :: as =>
    match add files queueMax readOver st a.file a.offset a.limit with
    | .error e => .error e
    | .ok st => addAll files queueMax readOver st as

/-- Add the files and open (131-149). -/
def openAll (files : Str → Option Str) (queueMax readOver : Nat) (as : List Add) : Res St :=
  match addAll files queueMax readOver .new as with
  | .error e => .error e
  | .ok st => queueMore files queueMax false st

/-- Calls of `read` with buffers of any sizes, which end with the end of the data: what was read and the state. -/
def readAll (files : Str → Option Str) (queueMax : Nat) : St → List (Nat × Bool) → Res (Str × St)
  | st, [] => .ok ([], st)
  | st, (cap, known) :: calls =>
    if st.eof then .ok ([], st)
    else
      match read files queueMax st cap known with
      | .error e => .error e
      | .ok (out, st) =>
        match readAll files queueMax st calls with
        | .error e => .error e
        | .ok (more, st) => .ok (out ++ more, st)

end Verif.Storage
