import Verif.Http.RespModel

/-!
# Many requests and responses in one

Model of `HttpRequestMulti` in `src/common/io/http/request.c` and of `HttpResponseMulti` in `src/common/io/http/response.c`.

Simplifications:

* the text of a part of a request is given (`httpRequestFmt` is not there);
* pointers into a buffer are what comes after them in the buffer. A pointer that is after the end, which happens after the last part, is nothing.
-/

namespace Verif.Http

/-- `bufFind` (`src/common/type/buffer.c` 207-240) from a place in the buffer: how far it is to the first place that begins with `b`, which is not empty. -/
def find (b : Str) : Str → Option Nat
  | [] => none
  | c :: t => if b <+: c :: t then some 0 else (find b t).map (· + 1)

/-- `HTTP_MULTIPART_BOUNDARY_INIT` and `HTTP_MULTIPART_BOUNDARY_EXTRA` (`src/common/io/http/request.h` 77-79) -/
def boundaryInit : Str := "QKX4EYg4".toUTF8.toList
def boundaryExtra : Str := "LARJ52gF4F239iNVrrC5w5aYskcGrWCXIFlMp5IxswggIhcX2A0gF9nrgN8q".toUTF8.toList

/-- Find a boundary that is not used in the content (request.c 417-425). The boundary gets longer each time, so that fuel of 16 is enough. -/
def boundaryFor : Nat → Str → Str → Res Str
  | 0, _, _ => .error .assert
  | k + 1, b, content =>
    match find b content with
    | none => .ok b
    | some _ =>
      if b.length = boundaryInit.length + boundaryExtra.length then .error .assert
      else boundaryFor k (b ++ (boundaryExtra.drop (b.length - boundaryInit.length)).take 4) content

/-- `HttpRequestMulti` (request.c 345-351) -/
structure ReqMulti where
  boundary : Str
  contents : List Str
  deriving DecidableEq, Repr

/-- `httpRequestMultiNew` (request.c 356-372) -/
def reqNew : ReqMulti := ⟨boundaryInit, []⟩

/-- `httpRequestMultiAdd` (request.c 377-436) -/
def reqAdd (m : ReqMulti) (content : Str) : Res ReqMulti := do
  let b ← boundaryFor 16 m.boundary content
  pure ⟨b, m.contents ++ [content]⟩

def reqAddAll (m : ReqMulti) : List Str → Res ReqMulti
  | [] => pure m
  | c :: cs => do
    let m ← reqAdd m c
    reqAddAll m cs

/-- The loop of `httpRequestMultiContent` (request.c 472-481). -/
def reqParts (boundary : Str) : List Str → Str
  | [] => []
  | [c] => c ++ boundary ++ [45, 45, 13, 10]
  | c :: cs => c ++ boundary ++ [13, 10] ++ reqParts boundary cs

/-- `httpRequestMultiContent` (request.c 443-486) -/
def reqContent (m : ReqMulti) : Str := [45, 45] ++ m.boundary ++ [13, 10] ++ reqParts ([13, 10, 45, 45] ++ m.boundary) m.contents

/-- `HTTP_HEADER_CONTENT_TYPE_MULTIPART` and `HTTP_HEADER_CONTENT_TYPE_HTTP` (`src/common/io/http/request.h`) -/
def typeMulti : Str := "multipart/mixed; boundary=".toUTF8.toList
def typeHttp : Str := "application/http".toUTF8.toList
def kContentType : Str := "content-type".toUTF8.toList

/-- `httpRequestMultiHeaderAdd` (request.c 489-509): the value of the header. -/
def reqType (m : ReqMulti) : Str := typeMulti ++ m.boundary

/-- `HttpResponseMulti` (48-53): the boundary with the line end before it, and what comes at and after `boundaryLast`. -/
structure RespMulti where
  boundary : Str
  last : Str
  deriving DecidableEq, Repr

/-- The boundary in the value of the header (500-506). -/
def boundaryOf (contentType : Option Str) : Res Str :=
  match contentType with
  | none => .error .format
  | some t =>
    if typeMulti <+: t then
      let b := t.drop typeMulti.length
      if b.head? = some 34 then
        if b.length < 2 then .error .ub else .ok ((b.drop 1).take (b.length - 2))
      else .ok b
    else .error .format

/-- `httpResponseMultiNew` (481-530) -/
def multiNew (content : Str) (contentType : Option Str) : Res RespMulti := do
  let b ← boundaryOf contentType
  match find ([45, 45] ++ b ++ [13, 10]) content with
  | none => .error .format
  | some i => pure ⟨[13, 10, 45, 45] ++ b, content.drop i⟩

/-- Find the next part (544-546, 554 and 589). -/
def multiPart (m : RespMulti) : RespMulti × Option Str :=
  let at_ := m.last.drop m.boundary.length
  match find m.boundary at_ with
  | none => ({ m with last := at_ }, none)
  | some i => ({ m with last := at_.drop (i + 2) }, some (at_.take i))

/-- Read a part (554-586): the response and its content, `none` if there is not enough fuel for the headers. -/
def partRead (fuel cap : Nat) (part : Str) : Option (Res (Resp × Str)) :=
  match headerRead true fuel Resp.new ⟨part, false, cap⟩ with
  | none => none
  | some (.error e) => some (.error e)
  | some (.ok (r, c)) =>
    if get r.header kContentType ≠ some typeHttp then some (.error .format)
    else
      match statusRead r c with
      | .error e => some (.error e)
      | .ok (r, c) =>
        match headerRead true fuel r c with
        | none => none
        | some (.error e) => some (.error e)
        | some (.ok (r, c)) =>
          if r.chunked then some (.error .format) else some (.ok (r, c.rest))

/-- Read all parts: the loop of the callers (for instance `src/storage/azure/storage.c` 815-840). -/
def multiAll (fuel cap : Nat) : Nat → RespMulti → Option (Res (List (Resp × Str)))
  | 0, _ => none
  | k + 1, m =>
    match multiPart m with
    | (_, none) => some (.ok [])
    | (m, some part) =>
      match partRead fuel cap part with
      | none => none
      | some (.error e) => some (.error e)
      | some (.ok x) =>
        match multiAll fuel cap k m with
        | none => none
        | some (.error e) => some (.error e)
        | some (.ok xs) => some (.ok (x :: xs))

/-- The parts as they are. -/
def multiRaw : Nat → RespMulti → List Str
  | 0, _ => []
  | k + 1, m =>
    match multiPart m with
    | (_, none) => []
    | (m, some part) => part :: multiRaw k m

end Verif.Http
