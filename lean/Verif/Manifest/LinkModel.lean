import Verif.Manifest.SaveModel

/-! # Model of link validation (src/info/manifest/link.c.inc) and of target paths (src/info/manifest/store.c.inc 706-761)

Paths are strings of C, without zero bytes. -/

namespace Verif.Manifest

open Verif

/-! ## Paths -/

/-- `..` and `.` -/
def dotDotZ : Str := [46, 46]
def dotZ : Str := [46]

/-- `strLstJoin(…, "/")` (src/common/type/stringList.c 322-349). -/
def joinSlash : List Str → Str
  | [] => []
  | [s] => s
  | s :: t => s ++ 47 :: joinSlash t

/-- `strstr(s, find) != NULL` -/
def contains (find : Str) : Str → Bool
  | [] => find.isPrefixOf []
  | c :: s => find.isPrefixOf (c :: s) || contains find s

/-- The loop over the parts of a relative path (src/common/type/string.c 867-897). The parts of the base are in `base`. -/
def absParts (base : List Str) : List Str → Res (List Str)
  | [] => .ok base
  | p :: rest =>
    if p = [] then
      if rest = [] then .ok base else .error .assert
    else if p = dotDotZ then
      match base.getLast? with
      | none => .error .assert
      | some b => if b = [] then .error .assert else absParts base.dropLast rest
    else if p = dotZ then absParts base rest
    else absParts (base ++ [p]) rest

/-- The end of `strPathAbsolute` (string.c 911-913). -/
def absCheck (result : Str) : Res Str :=
  if contains [47, 46, 46] result || contains [47, 47] result then .error .assert else .ok result

/-- `strPathAbsolute` (string.c 835-916). -/
def pathAbsolute (this base : Str) : Res Str :=
  if [47].isPrefixOf this then absCheck this
  else if ![47].isPrefixOf base then .error .assert
  else do
    let l ← absParts (Wal.split 47 base) (Wal.split 47 this)
    absCheck (if l.length = 1 then [47] else joinSlash l)

/-- `strPath` (string.c 813-832): the part before the last slash, or a slash. -/
def strPath (s : Str) : Str :=
  let e := (s.reverse.dropWhile (· ≠ 47)).reverse
  if e.length ≤ 1 then e else e.dropLast

/-- `pg_tblspc` -/
def pgTblspcZ : Str := [112, 103, 95, 116, 98, 108, 115, 112, 99]

/-- `manifestPathPg` (manifest.c 818-843). The assertion is left out: it is compiled only for tests. -/
def pathPg (path : Str) : Option Str :=
  if (pgdataZ ++ [47]).isPrefixOf path then some (path.drop (pgdataZ.length + 1))
  else if path ≠ pgdataZ then some path
  else none

/-- `manifestTargetFind` (store.c.inc 706-723). -/
def targetFind (ts : List Target) (name : Str) : Res Target :=
  match ts.find? (·.name == name) with
  | none => .error .assert
  | some t => .ok t

/-- The path that is made absolute (store.c.inc 745-750). -/
def relPath (t : Target) : Res Str :=
  match pathPg t.name with
  | none => .error .ub
  | some n => .ok ((if strPath n = [] then [] else strPath n ++ [47]) ++ t.path)

/-- `manifestTargetPath` (store.c.inc 725-761). -/
def targetPath (ts : List Target) (t : Target) : Res Str :=
  if [47].isPrefixOf t.path then .ok t.path
  else do
    let p ← relPath t
    let base ← targetFind ts pgdataZ
    pathAbsolute p base.path

/-! ## Links -/

/-- `ManifestLinkCheckItem` (link.c.inc 9-14). The index is used only for messages. -/
structure LinkItem where
  path : Str
  file : Option Str
  deriving DecidableEq

/-- The check of a directory against its neighbours in the list (link.c.inc 126-174). -/
def checkPrior (l : List LinkItem) (i : Nat) (x : LinkItem) : Bool :=
  match (l.take i).reverse.find? (·.file.isNone) with
  | none => true
  | some y => !y.path.isPrefixOf x.path

def checkNext (l : List LinkItem) (i : Nat) (x : LinkItem) : Bool :=
  match (l.drop (i + 1)).find? (·.file.isNone) with
  | none => true
  | some y => !x.path.isPrefixOf y.path

/-- The list is kept sorted without duplicates, so the binary search of `lstFind` finds the entry with the path if there is one
(link.c.inc 72-176). -/
def checkItem (base : Str) (l : List LinkItem) (x : LinkItem) : Res (List LinkItem) :=
  if base.isPrefixOf x.path then .error .linkDestination
  else
    match l.find? (·.path == x.path) with
    | some y =>
      if x.file.isSome ∧ y.file.isSome then
        if x.file = y.file then .error .linkDestination else .ok l
      else .error .linkDestination
    | none =>
      let l := insertBy (·.path) x l
      let i := l.findIdx (·.path == x.path)
      if x.file = none then
        if checkPrior l i x then
          if checkNext l i x then .ok l else .error .linkDestination
        else .error .linkDestination
      else .ok l

/-- `manifestLinkCheckOne` (link.c.inc 33-182). The base path is kept after the first call in the code; it is the same each time. -/
def checkOne (ts : List Target) (l : List LinkItem) (t : Target) : Res (List LinkItem) :=
  if t.link then do
    let path ← targetPath ts t
    let base ← targetFind ts pgdataZ
    let basePath ← targetPath ts base
    checkItem (basePath ++ [47]) l ⟨path ++ [47], t.file⟩
  else .ok l

/-- `manifestLinkCheck` (link.c.inc 184-204). While a manifest is built (build.c.inc 487-488) the same check is done for each target when it
is added. -/
def linkCheck (ts : List Target) : Res Unit := do
  let _ ← ts.foldlM (checkOne ts) []
  .ok ()

end Verif.Manifest
