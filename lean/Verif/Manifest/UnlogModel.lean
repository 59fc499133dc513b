import Verif.Manifest.LinkModel

/-! # Model of the removal of unlogged relations from a new manifest (src/info/manifest/manifest.c 229-293) -/

namespace Verif.Manifest

open Verif

/-- `[0-9]` and `[0-9]+` for a whole string. -/
def isDig (c : UInt8) : Bool := 48 ≤ c && c ≤ 57
def digits (s : Str) : Bool := !s.isEmpty && s.all isDig

/-- `_fsm`, `_vm` and `_init` -/
def fsmZ : Str := [95, 102, 115, 109]
def vmZ : Str := [95, 118, 109]
def initZ : Str := [95, 105, 110, 105, 116]

/-- `(_(fsm|vm)){0,1}` taken from the start. -/
def dropFork (s : Str) : Str :=
  if fsmZ.isPrefixOf s then s.drop 4 else if vmZ.isPrefixOf s then s.drop 3 else s

/-- `(\.[0-9]+){0,1}$` -/
def segment : Str → Bool
  | [] => true
  | c :: s => c == 46 && digits s

/-- `^[0-9]+(_(fsm|vm)){0,1}(\.[0-9]+){0,1}$` (manifest.c 73). What follows the digits is not a digit, so there is one way to match. -/
def relName (s : Str) : Bool :=
  !(s.takeWhile isDig).isEmpty && segment (dropFork (s.dropWhile isDig))

/-- The identifier of the tablespace in the expression, where a dot is any byte. It has no other special bytes: it is `PG_`, the version,
`_` and the catalog version (src/postgres/interface.c 552-575). -/
def matchTs : Str → Str → Bool
  | [], [] => true
  | p :: ps, c :: s => (p == 46 || p == c) && matchTs ps s
  | _, _ => false

/-- `pg_data/global`, `pg_data/base/` and `pg_tblspc/` -/
def globalZ : Str := pgdataZ ++ [47, 103, 108, 111, 98, 97, 108]
def baseZ : Str := pgdataZ ++ [47, 98, 97, 115, 101, 47]
def tblspcZ : Str := pgTblspcZ ++ [47]

/-- `DB_PATH_EXP` for a whole string (manifest.c 74-75). -/
def dbPath (ts : Str) (s : Str) : Bool :=
  s == globalZ ||
  (baseZ.isPrefixOf s && digits (s.drop baseZ.length)) ||
  (tblspcZ.isPrefixOf s &&
    (let r := s.drop tblspcZ.length
     let n := r.takeWhile isDig
     let q := r.dropWhile isDig
     let m := q.drop (ts.length + 2)
     !n.isEmpty && (q.take 1 == [47] && matchTs ts ((q.drop 1).take ts.length) && (q.drop (ts.length + 1)).take 1 == [47] && digits m)))

/-- What follows the last slash (`strBaseZ`, src/common/type/string.c 289-308), and what is before, with the slash. -/
def baseName (s : Str) : Str := (s.reverse.takeWhile (· ≠ 47)).reverse
def dirName (s : Str) : Str := (s.reverse.dropWhile (· ≠ 47)).reverse

/-- `relationExp` (manifest.c 233). The second part has no slash, so it is matched with what follows the last one. -/
def isRelation (ts : Str) (s : Str) : Bool :=
  !(dirName s).isEmpty && dbPath ts (dirName s).dropLast && relName (baseName s)

/-- The loop (manifest.c 243-293). `last` and `unlogged` are what is kept from the last relation, `done` the files already passed and kept.
The buffer for the identifier has 21 bytes (235, 255), which is too small for more than 20 digits. -/
def unlogLoop (ts : Str) (last : Str) (unlogged : Bool) (done : List Str) : List Str → Res (List Str)
  | [] => .ok done
  | f :: rest =>
    if isRelation ts f then
      let id := (baseName f).takeWhile isDig
      if 20 < id.length then .error .ub
      else
        let unlogged := if last = id then unlogged else decide (dirName f ++ id ++ initZ ∈ done ++ f :: rest)
        if unlogged then unlogLoop ts id unlogged done rest
        else unlogLoop ts id unlogged (done ++ [f]) rest
    else unlogLoop ts last unlogged (done ++ [f]) rest

/-- The files of the manifest after the removal; before, they are sorted and no name is there twice. -/
def unlogRemove (ts : Str) (files : List Str) : Res (List Str) := unlogLoop ts [] false [] files

end Verif.Manifest
