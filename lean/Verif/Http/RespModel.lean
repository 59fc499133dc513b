import Verif.Num.Model

/-!
# Reading an HTTP response

Model of `src/common/io/http/response.c` (line numbers without a file are of this file): the status, the headers, and the content by length, by chunks, or up to
the end of the connection.

Simplifications:

* a connection is the bytes that the server sends on it until it closes it. The functions of the reader do on these bytes what C68 proves of them: `ioRead`
  gives as many bytes as there is room for, or all there are, `ioReadLineParam` gives the next line. A reader says that the end was reached when a read got
  less than it asked for (a socket reports the end with a read of no bytes, `src/common/io/socket/session.c`, `src/common/io/tls/session.c`);
* waiting and time limits are not there: a server that does not close the connection is one that sends what comes next later;
* errors have no message. An error frees the response and with it the session, so that no state is returned with an error;
* characters are bytes, `tolower` is that of the "C" locale;
* whether to accept a connection that was not closed properly (TLS) is not there (88-103).
-/

namespace Verif.Http

abbrev Str := List UInt8

/-- What is left on a connection, whether the reader has seen its end, and `ioBufferSize()`. -/
structure Conn where
  rest : Str
  eof : Bool
  cap : Nat
  deriving DecidableEq, Repr

/-- `ioRead` with room for `n` bytes (`src/common/io/read.c` 163-197). -/
def Conn.read (c : Conn) (n : Nat) : Conn × Str :=
  ({ c with rest := c.rest.drop n, eof := c.eof || decide (c.rest.length < n) }, c.rest.take n)

/-- `ioReadLineParam` (`src/common/io/read.c` 268-351). What is left at the end is not consumed (340). -/
def Conn.line (c : Conn) (allowEof : Bool) : Res (Conn × Str) :=
  if 10 ∈ c.rest.take c.cap then
    .ok ({ c with rest := c.rest.drop ((c.rest.takeWhile (· ≠ 10)).length + 1) }, c.rest.takeWhile (· ≠ 10))
  else if c.cap ≤ c.rest.length ∨ allowEof = false then .error .fileRead
  else .ok ({ c with eof := true }, c.rest)

/-- White space of `strTrim` (`src/common/type/string.c` 983-1027). -/
def isTrim (c : UInt8) : Bool := c == 32 || c == 9 || c == 13 || c == 10

/-- `strTrim` -/
def trim (s : Str) : Str := ((s.dropWhile isTrim).reverse.dropWhile isTrim).reverse

/-- `tolower` -/
def lowerChr (c : UInt8) : UInt8 := if 65 ≤ c ∧ c ≤ 90 then c + 32 else c

/-- `strLower` (`src/common/type/string.c` 797-810) -/
def lower (s : Str) : Str := s.map lowerChr

/-- A string as the functions of the C library see it: up to the first zero. -/
def cstr (s : Str) : Str := s.takeWhile (· ≠ 0)

/-- `strChr` (`src/common/type/string.c` 1030-1051) -/
def strChr (s : Str) (c : UInt8) : Option Nat := if c ∈ cstr s then some ((cstr s).takeWhile (· ≠ c)).length else none

/-- `HttpResponse` (34-46). `header` is the key/value store of `src/common/io/http/header.c`. -/
structure Resp where
  code : Nat
  reason : Str
  header : List (Str × Str)
  chunked : Bool
  sizeSet : Bool
  size : Nat
  remaining : Nat
  close : Bool
  hasContent : Bool
  eof : Bool
  deriving DecidableEq, Repr

/-- `httpResponseNewInternal` (356-376) -/
def Resp.new : Resp := ⟨0, [], [], false, false, 0, 0, false, false, false⟩

def http11 : Str := [72, 84, 84, 80, 47, 49, 46, 49]
def http10 : Str := [72, 84, 84, 80, 47, 49, 46, 48]

/-- `httpResponseStatusRead` (232-284) after the line was read. `sizeof(HTTP_VERSION)` is 9. -/
def statusParse (r : Resp) (line : Str) : Res Resp :=
  if line.getLast? ≠ some 13 then .error .format
  else
    let s := line.dropLast
    if s.length < 13 then .error .format
    else if ¬(http10 <+: s) ∧ ¬(http11 <+: s) then .error .format
    else
      let t := s.drop 9
      if strChr t 32 ≠ some 3 then .error .format
      else do
        let code ← Num.toUIntBase 10 (t.take 3)
        pure { r with close := if http10 <+: s then true else r.close, code := code, reason := t.drop 4 }

/-- `httpResponseStatusRead` (232-284) -/
def statusRead (r : Resp) (c : Conn) : Res (Resp × Conn) := do
  let (c, line) ← c.line false
  let r ← statusParse r line
  pure (r, c)

/-- `kvGet` -/
def get (h : List (Str × Str)) (key : Str) : Option Str := (h.find? (·.1 == key)).map (·.2)

/-- `kvPut` -/
def put : List (Str × Str) → Str → Str → List (Str × Str)
  | [], k, v => [(k, v)]
  | (k', v') :: h, k, v => if k' = k then (k, v) :: h else (k', v') :: put h k v

/-- `httpHeaderAdd` (`src/common/io/http/header.c` 65-101) -/
def headerAdd (h : List (Str × Str)) (k v : Str) : List (Str × Str) :=
  match get h k with
  | some old => put h k (old ++ [44, 32] ++ cstr v)
  | none => put h k v

def kTransferEncoding : Str := [116, 114, 97, 110, 115, 102, 101, 114, 45, 101, 110, 99, 111, 100, 105, 110, 103]
def kContentLength : Str := [99, 111, 110, 116, 101, 110, 116, 45, 108, 101, 110, 103, 116, 104]
def kConnection : Str := [99, 111, 110, 110, 101, 99, 116, 105, 111, 110]
def vChunked : Str := [99, 104, 117, 110, 107, 101, 100]
def vClose : Str := [99, 108, 111, 115, 101]

/-- One header, trimmed and not blank (310-349). -/
def headerParse (r : Resp) (line : Str) : Res Resp :=
  match strChr line 58 with
  | none => .error .format
  | some colon =>
    let key := lower (trim (line.take colon))
    let value := trim (line.drop (colon + 1))
    if key = kTransferEncoding then
      if lower value ≠ vChunked then .error .format
      else pure { r with chunked := true, header := headerAdd r.header key (lower value) }
    else if key = kContentLength then do
      let n ← Num.toUInt64Base 10 (cstr value)
      pure { r with sizeSet := true, size := n, remaining := n, header := headerAdd r.header key value }
    else if key = kConnection then
      pure { r with close := r.close || lower value == vClose, header := headerAdd r.header key (lower value) }
    else pure { r with header := headerAdd r.header key value }

/-- `httpResponseHeaderRead` (289-365): `none` if it takes more turns than there is fuel for. -/
def headerRead (allowEof : Bool) : Nat → Resp → Conn → Option (Res (Resp × Conn))
  | 0, _, _ => none
  | k + 1, r, c =>
    match c.line allowEof with
    | .error e => some (.error e)
    | .ok (c, line) =>
      if trim line = [] then
        if r.chunked = true ∧ r.sizeSet = true then some (.error .format) else some (.ok (r, c))
      else
        match headerParse r (trim line) with
        | .error e => some (.error e)
        | .ok r => headerRead allowEof k r c

/-- What became of the session: the response holds it, it was returned to the client to be used for the next request, it was closed. -/
inductive Sess where
  | held | returned | freed
  deriving DecidableEq, Repr

/-- `httpResponseDone` (62-88) -/
def done (r : Resp) : Sess := if r.close then .freed else .returned

/-- A response that is being read. -/
structure Open where
  resp : Resp
  conn : Conn
  sess : Sess
  deriving DecidableEq, Repr

/-- `httpResponseNew` (378-436), without the content that is cached, which is `content` below. -/
def respNew (fuel : Nat) (head : Bool) (c : Conn) : Option (Res Open) :=
  match statusRead Resp.new c with
  | .error e => some (.error e)
  | .ok (r, c) =>
    match headerRead false fuel r c with
    | none => none
    | some (.error e) => some (.error e)
    | some (.ok (r, c)) =>
      let exists_ := (r.chunked || decide (0 < r.size) || r.close) && !head
      let r := { r with hasContent := exists_, eof := !exists_ }
      some (.ok ⟨r, c, if exists_ then .held else done r⟩)

/-- Consume trailers and the blank line after them (160). Each turn takes a line, so that there are fewer turns than bytes. -/
def trailers : Nat → Conn → Res Conn
  | 0, _ => .error .assert
  | k + 1, c =>
    match c.line false with
    | .error e => .error e
    | .ok (c, line) => if trim line = [] then .ok c else trailers k c

/-- The number in the header of a chunk (147-153). -/
def chunkSize (line : Str) : Res Nat :=
  let h := trim line
  let h := match strChr h 59 with
    | some i => trim (h.take i)
    | none => h
  Num.toUInt64Base 16 (cstr h)

/-- Read the header of the next chunk (142-165). -/
def chunkHead (r : Resp) (c : Conn) : Res (Resp × Conn) :=
  if r.chunked = true ∧ r.remaining = 0 then do
    let (c, line) ← c.line false
    let n ← chunkSize line
    if n = 0 then do
      let c ← trailers (c.rest.length + 1) c
      pure ({ r with remaining := 0, eof := true }, c)
    else pure ({ r with remaining := n }, c)
  else pure (r, c)

/-- Read if there is content remaining (168-184). -/
def chunkData (room : Nat) (r : Resp) (c : Conn) : Res (Resp × Conn × Str) :=
  if 0 < r.remaining then
    let (c, d) := c.read (min room r.remaining)
    if c.eof then .error .fileRead
    else pure ({ r with remaining := r.remaining - d.length }, c, d)
  else pure (r, c, [])

/-- If no content remaining (187-198). -/
def chunkTail (r : Resp) (c : Conn) : Res (Resp × Conn) :=
  if r.remaining = 0 then
    if r.chunked = true ∧ r.eof = false then do
      let (c, _) ← c.line false
      pure (r, c)
    else pure ({ r with eof := true }, c)
  else pure (r, c)

/-- The loop of `httpResponseRead` (138-200). Each turn takes a byte or ends the loop. -/
def readLoop : Nat → Nat → Resp → Conn → Res (Resp × Conn × Str)
  | 0, _, _, _ => .error .assert
  | k + 1, room, r, c => do
    let (r, c) ← chunkHead r c
    let (r, c, out) ← chunkData room r c
    let (r, c) ← chunkTail r c
    if out.length < room ∧ r.eof = false then do
      let (r, c, more) ← readLoop k (room - out.length) r c
      pure (r, c, out ++ more)
    else pure (r, c, out)

/-- `httpResponseRead` (105-211) into a buffer with room for `room` bytes. -/
def respRead (o : Open) (room : Nat) : Res (Open × Str) :=
  if o.resp.eof then pure (o, [])
  else if o.resp.close = true ∧ o.resp.chunked = false ∧ o.resp.size = 0 then
    let (c, out) := o.conn.read room
    let r := { o.resp with eof := c.eof }
    pure (⟨r, c, if c.eof then done r else o.sess⟩, out)
  else do
    let (r, c, out) ← readLoop (o.conn.rest.length + 1) room o.resp o.conn
    pure (⟨r, c, if r.eof then done r else o.sess⟩, out)

/-- Read with buffers of these sizes, one after the other. -/
def respReads (o : Open) : List Nat → Res (Open × List Str)
  | [] => pure (o, [])
  | n :: ns => do
    let (o, out) ← respRead o n
    let (o, outs) ← respReads o ns
    pure (o, out :: outs)

/-- `httpResponseContent` (439-466): read with `size` more room each time until the end, `none` if there is not enough fuel. `total` is the size of the buffer. -/
def content (size : Nat) : Nat → Nat → Open → Str → Option (Res (Open × Str))
  | 0, _, _, _ => none
  | k + 1, total, o, got =>
    match respRead o (total + size - got.length) with
    | .error e => some (.error e)
    | .ok (o, out) => if o.resp.eof then some (.ok (o, got ++ out)) else content size k (total + size) o (got ++ out)

end Verif.Http
