import Verif.Num.Model
import Verif.Http.UriModel

/-!
# URI encoding and queries

Model of `httpUriEncode` and `httpUriDecode` in `src/common/io/http/common.c`, of `src/common/io/http/query.c`, and of what is shown of requests in logs and errors
(`src/common/io/http/header.c`, `src/common/io/http/request.c`).

Simplifications:

* a key/value store of `src/common/type/keyValue.c` is the list of its pairs;
* sorting is by insertion: `qsort` gives the same list if no key is there twice;
* strings have no zero byte. `%00` is decoded to one, which builds with assertions refuse (`strCatChr`, `src/common/type/string.c` 529);
* a message in a log is not cut to the size of its buffer.
-/

namespace Verif.Http.Query

/-- `httpUriEncode` (common.c 110-145) -/
def encode (path : Bool) : Str → Str
  | [] => []
  | c :: s => (if verbatim path c then [c] else [37, hexChr (c / 16), hexChr (c % 16)]) ++ encode path s

/-- `httpUriDecode` (common.c 71-108) -/
def decode : Str → Res Str
  | [] => .ok []
  | c :: s =>
    if c = 37 then
      match s with
      | a :: b :: s =>
        match Num.toUIntBase 16 [a, b] with
        | .error e => .error e
        | .ok n =>
          match decode s with
          | .error e => .error e
          | .ok t => .ok (n.toUInt8 :: t)
      | _ => .error .format
    else
      match decode s with
      | .error e => .error e
      | .ok t => .ok (c :: t)

/-- `HttpQuery` (query.c 15-19), and `HttpHeader`: pairs in the order in which they were added, and what is not to be shown. -/
structure Query where
  kv : List (Str × Str)
  redact : List Str
  deriving DecidableEq, Repr

/-- `kvGet` -/
def get (kv : List (Str × Str)) (k : Str) : Option Str := (kv.find? (·.1 == k)).map (·.2)

/-- `kvPut` (keyValue.c 111-147) -/
def put : List (Str × Str) → Str → Str → List (Str × Str)
  | [], k, v => [(k, v)]
  | (k', v') :: kv, k, v => if k' = k then (k', v) :: kv else (k', v') :: put kv k v

/-- `httpQueryAdd` (query.c 114-137) -/
def add (q : Query) (k v : Str) : Res Query :=
  match get q.kv k with
  | some _ => .error .assert
  | none => .ok { q with kv := put q.kv k v }

/-- `httpQueryPut` (query.c 195-212) -/
def queryPut (q : Query) (k v : Str) : Query := { q with kv := put q.kv k v }

def addAll (q : Query) : List (Str × Str) → Res Query
  | [] => .ok q
  | (k, v) :: l =>
    match add q k v with
    | .error e => .error e
    | .ok q => addAll q l

/-- `httpQueryMerge` (query.c 170-192) -/
def merge (q r : Query) : Res Query := addAll q r.kv

/-- `httpQueryDup` (query.c 91-111) -/
def dup (q : Query) (redact : Option (List Str)) : Query := { q with redact := redact.getD q.redact }

/-- `strLstNewSplitZ` (`src/common/type/stringList.c`) with a delimiter of one character. -/
def split (c : UInt8) : Str → List Str
  | [] => [[]]
  | x :: s =>
    if x = c then [] :: split c s
    else match split c s with
      | [] => [[x]]
      | h :: t => (x :: h) :: t

/-- Add each key/value pair (query.c 67-80). -/
def parsePairs (q : Query) : List Str → Res Query
  | [] => .ok q
  | p :: ps =>
    match split 61 p with
    | [k, v] =>
      match decode k with
      | .error e => .error e
      | .ok k =>
        match decode v with
        | .error e => .error e
        | .ok v =>
          match add q k v with
          | .error e => .error e
          | .ok q => parsePairs q ps
    | _ => .error .format

/-- `httpQueryNewStr` (query.c 43-88) -/
def parse (s : Str) : Res Query := parsePairs ⟨[], []⟩ (split 38 (if s.head? = some 63 then s.drop 1 else s))

/-- `strcmp` -/
def le : Str → Str → Bool
  | [], _ => true
  | _ :: _, [] => false
  | a :: s, b :: t => a < b || (a == b && le s t)

def insert (k : Str) : List Str → List Str
  | [] => [k]
  | x :: l => if le k x then k :: x :: l else x :: insert k l

/-- `strLstSort` -/
def sort : List Str → List Str
  | [] => []
  | k :: l => insert k (sort l)

/-- `httpQueryList` (query.c 156-167), `httpHeaderList` -/
def keys (q : Query) : List Str := sort (q.kv.map (·.1))

/-- `httpQueryRedact` (query.c 215-226), `httpHeaderRedact` (header.c 180-191) -/
def redacted (q : Query) (k : Str) : Bool := q.redact.contains k

/-- "<redacted>" -/
def hidden : Str := [60, 114, 101, 100, 97, 99, 116, 101, 100, 62]

/-- The loop of `httpQueryRender` (query.c 254-266). -/
def renderLoop (redact : Bool) (q : Query) : List Str → Str → Str
  | [], out => out
  | k :: ks, out =>
    let out := if out.length ≠ 0 then out ++ [38] else out
    renderLoop redact q ks (out ++ encode false k ++ [61] ++ (if redact && redacted q k then hidden else encode false ((get q.kv k).getD [])))

/-- `httpQueryRender` (query.c 229-273) -/
def render (redact : Bool) (q : Query) : Option Str := if keys q = [] then none else some (renderLoop redact q (keys q) [])

/-- The loop of `httpQueryToLog` (query.c 283-296) and of `httpHeaderToLog` (header.c 201-214). -/
def logLoop (q : Query) : Bool → List Str → Str
  | _, [] => []
  | first, k :: ks =>
    (if first then [] else [44, 32]) ++ k ++ (if redacted q k then [58, 32] ++ hidden else [58, 32, 39] ++ (get q.kv k).getD [] ++ [39]) ++ logLoop q false ks

/-- `httpQueryToLog` (query.c 276-299), `httpHeaderToLog` (header.c 194-217) -/
def toLog (q : Query) : Str := [123] ++ logLoop q true (q.kv.map (·.1)) ++ [125]

def txt (s : String) : Str := s.toUTF8.toList

/-- The query in an error (request.c 308-309). A query without keys has no rendering (`strZ` of a null pointer). -/
def errorQuery : Option Query → Res Str
  | none => .ok []
  | some q => match render true q with
    | none => .error .ub
    | some s => .ok ([63] ++ s)

/-- `httpRequestError` (request.c 286-351) -/
def errorText (code : Nat) (reason verb path : Str) (query : Option Query) (header response : Query) (content : Str) : Res Str :=
  match errorQuery query with
  | .error e => .error e
  | .ok q =>
    .ok (txt "HTTP request failed with " ++ txt (toString code) ++ (if reason.length > 0 then txt " (" ++ reason ++ txt ")" else []) ++
      txt ":\n*** Path/Query ***:" ++ [10] ++ verb ++ [32] ++ path ++ q ++
      (if keys header ≠ [] then txt "\n*** Request Headers ***:" ++
        ((keys header).map fun k => [10] ++ k ++ [58, 32] ++ (if redacted header k then hidden else (get header.kv k).getD [])).flatten else []) ++
      (if keys response ≠ [] then txt "\n*** Response Headers ***:" ++
        ((keys response).map fun k => [10] ++ k ++ [58, 32] ++ (get response.kv k).getD []).flatten else []) ++
      (if content ≠ [] then txt "\n*** Response Content ***:\n" ++ content else []))

end Verif.Http.Query
