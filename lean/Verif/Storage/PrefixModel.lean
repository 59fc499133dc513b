import Verif.Storage.ItrModel

/-!
# Listing an object store with an expression

Model of `regExpPrefix` (src/common/regExp.c) and of how the listings of the object stores use it (src/storage/s3/storage.c 773-905,
src/storage/azure/storage.c 478-655, src/storage/gcs/storage.c 652-835).

What is simplified. Strings are lists of characters without a zero. The store is the list of its keys; it answers a query at once (see
ObjModel.lean for pages and versions). What an expression means is in PrefixSpec.lean.
-/

namespace Verif.Storage

/-- The characters that end the prefix (regExp.c 161-164). -/
def stops (c : Char) : Bool :=
  c == '.' || c == '^' || c == '$' || c == '*' || c == '+' || c == '-' || c == '?' || c == '(' || c == '[' || c == '{' || c == ' ' ||
    c == '|' || c == '\\'

/-- There is another begin anchor (regExp.c 177-182). `prev` is the character before. -/
def anchor : Char → List Char → Bool
  | _, [] => false
  | prev, c :: cs => (c == '^' && prev != '[' && prev != '\\') || anchor c cs

/-- `regExpPrefix` (regExp.c 137-191) of an expression that is not NULL. -/
def regExpPrefix : List Char → Option (List Char)
  | [] => none
  | a :: rest =>
    if a == '^' then
      match h : rest.takeWhile (fun c => !stops c) with
      | [] => none
      | x :: xs => if anchor ((x :: xs).getLast (by simp)) (rest.drop (x :: xs).length) then none else some (x :: xs)
    else none

/-- Up to the first slash, with it; none when there is no slash. -/
def toSlash : List Char → Option (List Char)
  | [] => none
  | c :: cs => if c == '/' then some [c] else (toSlash cs).map (c :: ·)

/-- What an object store answers to a query with a prefix and the delimiter `/`: of each key that begins with the prefix, the part up
to the first slash after the prefix (a common prefix), or the key when there is none. -/
def answer (query key : Name) : Option (Name × Bool) :=
  if query.isPrefixOf key then
    match toSlash (key.drop query.length) with
    | some s => some (query ++ s, true)
    | none => some (key, false)
  else none

/-- The query prefix (s3/storage.c 776-787). -/
def queryPrefix (base : Name) (expression : Option Name) : Name :=
  match expression.bind regExpPrefix with
  | none => base
  | some p => if base.isEmpty then p else base ++ p

/-- An entry made from an answer: the base prefix is taken off and the final slash of a path (s3/storage.c 870-871, 903-906). -/
def entryOf (base : Name) (a : Name × Bool) : Entry Unit :=
  if a.2 then ⟨(a.1.drop base.length).take (a.1.length - base.length - 1), true, ()⟩ else ⟨a.1.drop base.length, false, ()⟩

/-- `storageS3List` and the same for the others: the entries of a path, `base` being the path and a slash, or nothing for the root. A
path may come more than once here. -/
def objList (keys : List Name) (base : Name) (expression : Option Name) : List (Entry Unit) :=
  (keys.filterMap (answer (queryPrefix base expression))).map (entryOf base)

end Verif.Storage
