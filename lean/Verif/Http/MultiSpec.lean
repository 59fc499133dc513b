import Verif.Http.RespSpec

/-!
# What a multipart message is

After RFC 2046, 5.1.1.
-/

namespace Verif.Http.Spec

/-- What delimits parts. -/
def delim (b : Str) : Str := [13, 10, 45, 45] ++ b

/-- `b` is somewhere in `s`. -/
def Occurs (b s : Str) : Prop := ∃ x y, s = x ++ b ++ y

/-- Parts with their delimiters, each part after the line of the delimiter before it. -/
def body (b : Str) (epilogue : Str) : List Str → Str
  | [] => epilogue
  | p :: ps => [13, 10] ++ p ++ delim b ++ body b epilogue ps

/-- A multipart message: what comes before the first delimiter is `preamble`, what comes after the last is `epilogue`. -/
def multi (b preamble : Str) (parts : List Str) (epilogue : Str) : Str :=
  preamble ++ ([45, 45] ++ b) ++ body b epilogue parts

/-- A part of a response: fields, a response of which the head may be ended by the delimiter, and the data. -/
structure Part where
  fields : List Field
  old : Bool
  code : Str
  reason : Str
  inner : List Field
  blank : Bool
  data : Str

def Part.statusLine (p : Part) : Str :=
  [72, 84, 84, 80, 47, 49, 46, if p.old then 48 else 49] ++ [32] ++ p.code ++ [32] ++ p.reason ++ crlf

def Part.wire (p : Part) : Str :=
  (p.fields.map Field.wire).flatten ++ crlf ++ p.statusLine ++ (p.inner.map Field.wire).flatten ++ (if p.blank then crlf ++ p.data else [])

/-- The fields of both heads. -/
def Part.all (p : Part) : List Field := p.fields ++ p.inner

def ct : Str := "content-type".toUTF8.toList
def appHttp : Str := "application/http".toUTF8.toList

structure Part.Valid (cap : Nat) (p : Part) : Prop where
  room : 2 ≤ cap
  code : (∃ n, Num.Numeral 10 p.code n) ∧ p.code.length = 3
  reason : ∀ c ∈ p.reason, c ≠ 10
  status : p.statusLine.length ≤ cap
  fields : ∀ f ∈ p.all, f.Valid cap
  plain : ∀ f ∈ p.all, f.key ≠ te
  length : ∀ f ∈ p.all, f.key = cl → ∃ n, Num.Numeral 10 f.value n ∧ n < 2 ^ 64
  http : ((p.fields.filter (·.key = ct)).map (·.value)) = [appHttp]
  data : p.blank = false → p.data = []

def Part.field (p : Part) (key : Str) : Option Str :=
  joined (((p.all.filter (·.key = key)).map (·.value)).map fun v => if key = te ∨ key = conn then v.map lc else v)

end Verif.Http.Spec
