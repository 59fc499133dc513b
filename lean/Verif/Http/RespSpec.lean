import Verif.Num.Props

/-!
# What a response is, as bytes on a connection

After RFC 9112: a status line, fields, a blank line, and a body that is delimited by a length, by chunks, or by the end of the connection. This says
what a server may send, not how it is read: any case of names, any white space around values, any chunks with any extensions, and any trailers.
-/

namespace Verif.Http.Spec

abbrev Str := List UInt8

def crlf : Str := [13, 10]

/-- Optional white space. -/
def Ows (s : Str) : Prop := ∀ c ∈ s, c = 32 ∨ c = 9

/-- Visible at both ends, not empty. -/
def Solid (s : Str) : Prop :=
  (∃ c, s.head? = some c ∧ c ≠ 32 ∧ c ≠ 9 ∧ c ≠ 13 ∧ c ≠ 10) ∧ ∃ c, s.getLast? = some c ∧ c ≠ 32 ∧ c ≠ 9 ∧ c ≠ 13 ∧ c ≠ 10

/-- Letters are the same in upper and in lower case. -/
def lc (c : UInt8) : UInt8 := if 65 ≤ c ∧ c ≤ 90 then c + 32 else c

/-- A field. -/
structure Field where
  name : Str
  pre : Str
  value : Str
  post : Str

def Field.key (f : Field) : Str := f.name.map lc

def Field.wire (f : Field) : Str := f.name ++ [58] ++ f.pre ++ f.value ++ f.post ++ crlf

/-- A field that fits in `cap` bytes. -/
structure Field.Valid (cap : Nat) (f : Field) : Prop where
  name : Solid f.name ∧ ∀ c ∈ f.name, c ≠ 58 ∧ c ≠ 10 ∧ c ≠ 0
  pre : Ows f.pre
  value : (f.value = [] ∨ Solid f.value) ∧ ∀ c ∈ f.value, c ≠ 10 ∧ c ≠ 0
  post : Ows f.post
  fits : f.wire.length ≤ cap

/-- A chunk: its size in hexadecimal with white space around it, an extension, and the data. -/
structure Chunk where
  pre : Str
  size : Str
  post : Str
  ext : Str
  data : Str

def Chunk.head (c : Chunk) : Str := c.pre ++ c.size ++ c.post ++ c.ext ++ crlf

def Chunk.wire (c : Chunk) : Str := c.head ++ c.data ++ crlf

/-- The line before the data of `n` bytes. -/
structure Chunk.HeadValid (cap n : Nat) (c : Chunk) : Prop where
  pre : Ows c.pre
  size : Num.Numeral 16 c.size n ∧ n < 2 ^ 64
  post : Ows c.post
  ext : (c.ext = [] ∨ c.ext.head? = some 59) ∧ ∀ x ∈ c.ext, x ≠ 10
  fits : c.head.length ≤ cap

structure Chunk.Valid (cap : Nat) (c : Chunk) : Prop where
  head : c.HeadValid cap c.data.length
  data : c.data ≠ []

/-- The body. -/
inductive Body where
  | none
  | length (data : Str)
  | chunks (cs : List Chunk) (last : Chunk) (trailers : List Str)
  | toClose (data : Str)

def Body.wire : Body → Str
  | .none => []
  | .length d => d
  | .chunks cs last ts => (cs.map Chunk.wire).flatten ++ last.head ++ (ts.map (· ++ crlf)).flatten ++ crlf
  | .toClose d => d

def Body.data : Body → Str
  | .none => []
  | .length d => d
  | .chunks cs _ _ => (cs.map Chunk.data).flatten
  | .toClose d => d

structure Msg where
  old : Bool
  code : Str
  reason : Str
  fields : List Field
  body : Body

/-- "HTTP/1.0" or "HTTP/1.1", a space, the code, a space, the reason. -/
def Msg.statusLine (m : Msg) : Str :=
  [72, 84, 84, 80, 47, 49, 46, if m.old then 48 else 49] ++ [32] ++ m.code ++ [32] ++ m.reason ++ crlf

def Msg.head (m : Msg) : Str := m.statusLine ++ (m.fields.map Field.wire).flatten ++ crlf

def Msg.wire (m : Msg) : Str := m.head ++ m.body.wire

/-- "transfer-encoding", "content-length", "connection", "chunked", "close" -/
def te : Str := "transfer-encoding".toUTF8.toList
def cl : Str := "content-length".toUTF8.toList
def conn : Str := "connection".toUTF8.toList
def chunked : Str := "chunked".toUTF8.toList
def close : Str := "close".toUTF8.toList

/-- The values of a field that may be there more than once. -/
def Msg.values (m : Msg) (key : Str) : List Str := (m.fields.filter (·.key = key)).map (·.value)

/-- The server closes the connection after the response: because it says so, or because it is an old server. -/
def Msg.closes (m : Msg) : Prop := m.old = true ∨ ∃ v ∈ m.values conn, v.map lc = close

/-- How the body is delimited is what the fields say. -/
def Framed (cap : Nat) (m : Msg) : Prop :=
  match m.body with
  | .none => m.values te = [] ∧ m.values cl = [] ∧ ¬m.closes
  | .length d => m.values te = [] ∧ m.values cl ≠ [] ∧ (∀ v ∈ m.values cl, Num.Numeral 10 v d.length) ∧ d.length < 2 ^ 64
  | .chunks cs last ts => m.values te ≠ [] ∧ (∀ v ∈ m.values te, v.map lc = chunked) ∧ m.values cl = [] ∧
      (∀ c ∈ cs, c.Valid cap) ∧ last.HeadValid cap 0 ∧
      ∀ t ∈ ts, (∀ c ∈ t, c ≠ 10) ∧ (∃ c ∈ t, c ≠ 32 ∧ c ≠ 9 ∧ c ≠ 13) ∧ t.length + 2 ≤ cap
  | .toClose _ => m.values te = [] ∧ m.values cl = [] ∧ m.closes

structure Msg.Valid (cap : Nat) (m : Msg) : Prop where
  room : 2 ≤ cap
  code : (∃ n, Num.Numeral 10 m.code n) ∧ m.code.length = 3
  reason : ∀ c ∈ m.reason, c ≠ 10
  status : m.statusLine.length ≤ cap
  fields : ∀ f ∈ m.fields, f.Valid cap
  framed : Framed cap m

/-- Values of the same field are one value with commas. Of two fields the values are in lower case. -/
def joined : List Str → Option Str
  | [] => none
  | v :: vs => some (vs.foldl (fun a b => a ++ [44, 32] ++ b) v)

def Msg.field (m : Msg) (key : Str) : Option Str :=
  joined ((m.values key).map fun v => if key = te ∨ key = conn then v.map lc else v)

/-- What reads of these sizes give of some data. -/
def slices : Str → List Nat → List Str
  | _, [] => []
  | d, n :: ns => d.take n :: slices (d.drop n) ns

/-- `p` is all that came of `w`, but not all of it. -/
def Cut (p w : Str) : Prop := ∃ s, s ≠ [] ∧ w = p ++ s

end Verif.Http.Spec
