import Verif.Manifest.LinkModel
import Verif.Num.Model

/-! # Model of the remapping of the manifest by restore (src/command/restore/remap.c.inc)

Lists of the manifest are found by name. They have no name twice, so an update by name is a map and a removal by name is a filter (lists are in
`Verif.Lst`). The value of a hash option is a list of pairs without duplicate keys, as `kvPut` makes it. -/

namespace Verif.Restore.Remap

open Verif Verif.Manifest

/-- The options: `pg-path`, `tablespace-map`, `tablespace-map-all`, `link-map` and `link-all`. -/
structure Opt where
  pgPath : Str
  tsMap : Option (List (Str × Str))
  tsAll : Option Str
  linkMap : Option (List (Str × Str))
  linkAll : Bool

/-- The parts of the manifest that are used. Of files only the names. -/
structure M where
  targets : List Target
  links : List Link
  paths : List Path
  files : List Str
  deriving DecidableEq

/-- `varStr(kvGet(map, VARSTR(key)))` (src/common/type/keyValue.c 262-282). -/
def kvGet (map : List (Str × Str)) (key : Str) : Option Str := (map.find? (·.1 == key)).map (·.2)

/-- `manifestTargetUpdate` (src/info/manifest/store.c.inc 780-810). -/
def targetUpdate (m : M) (name path : Str) (file : Option Str) : Res M :=
  if m.targets.any (·.name == name) then
    .ok { m with targets := m.targets.map fun t => if t.name = name then { t with path := path, file := file } else t }
  else .error .assert

/-- `manifestTargetAdd` (store.c.inc 674-704). -/
def targetAdd (m : M) (t : Target) : M := { m with targets := m.targets ++ [t] }

/-- `manifestTargetRemove` (store.c.inc 763-778). -/
def targetRemove (m : M) (name : Str) : Res M :=
  if m.targets.any (·.name == name) then .ok { m with targets := m.targets.filter (·.name ≠ name) } else .error .assert

/-- `manifestLinkUpdate` (store.c.inc 595-619). -/
def linkUpdate (m : M) (name destination : Str) : Res M :=
  if m.links.any (·.name == name) then
    .ok { m with links := m.links.map fun l => if l.name = name then { l with destination := destination } else l }
  else .error .assert

/-- `manifestLinkAdd` (store.c.inc 529-557). -/
def linkAdd (m : M) (l : Link) : M := { m with links := m.links ++ [l] }

/-- `manifestLinkRemove` (store.c.inc 578-593). -/
def linkRemove (m : M) (name : Str) : Res M :=
  if m.links.any (·.name == name) then .ok { m with links := m.links.filter (·.name ≠ name) } else .error .assert

/-- `pg_data/%s` -/
def inData (name : Str) : Str := pgdataZ ++ 47 :: name

/-- The data directory (remap.c.inc 17-24). -/
def mapBase (o : Opt) (m : M) : Res M :=
  match m.targets.find? (·.name == pgdataZ) with
  | none => .error .assert
  | some t => if t.path ≠ o.pgPath then targetUpdate m t.name o.pgPath none else .ok m

/-- The tablespace by name (48). -/
def byName (map : List (Str × Str)) (t : Target) : Option Str := t.tablespaceName.bind (kvGet map)

/-- The tablespace by id (54-55). -/
def byId (map : List (Str × Str)) (t : Target) : Option Str := kvGet map (Num.uintToZ t.tablespaceId.toNat)

/-- The keys that are used for a tablespace (50-51, 57-58). -/
def used (map : List (Str × Str)) (t : Target) : List Str :=
  (if byName map t = none then [] else t.tablespaceName.toList) ++ (if byId map t = none then [] else [Num.uintToZ t.tablespaceId.toNat])

/-- The path from the map (45-76). -/
def tsEntry (o : Opt) (t : Target) : Res (Option Str) :=
  match o.tsMap with
  | none => .ok none
  | some map =>
    match byName map t, byId map t with
    | some p, some q => if p ≠ q then .error .tablespaceMap else .ok (some p)
    | some p, none => .ok (some p)
    | none, q => .ok q

/-- The path of a tablespace, if it is to be mapped (42-80). -/
def tsPath (o : Opt) (t : Target) : Res (Option Str) :=
  match tsEntry o t with
  | .error e => .error e
  | .ok (some p) => .ok (some p)
  | .ok none =>
    match o.tsAll, t.tablespaceName with
    | none, _ => .ok none
    | some _, none => .error .ub
    | some all, some name => .ok (some (all ++ 47 :: name))

/-- The loop for one target (37-90). -/
def tsOne (o : Opt) (m : M) (t : Target) : Res M :=
  if t.tablespaceId ≠ 0 then
    match tsPath o t with
    | .error e => .error e
    | .ok none => .ok m
    | .ok (some p) =>
      match targetUpdate m t.name p none with
      | .error e => .error e
      | .ok m => linkUpdate m (inData t.name) p
  else .ok m

/-- The loop over the targets (35-91). A target is only changed by its own iteration, so it is as it was before when its turn comes. -/
def tsLoop (o : Opt) : M → List Target → Res M
  | m, [] => .ok m
  | m, t :: ts =>
    match tsOne o m t with
    | .error e => .error e
    | .ok m => tsLoop o m ts

/-- Keys of the map that no tablespace has (94-106). -/
def tsCheck (o : Opt) (ts : List Target) : Res Unit :=
  match o.tsMap with
  | none => .ok ()
  | some map =>
    if map.all fun e => decide (e.1 ∈ (ts.filter (·.tablespaceId ≠ 0)).flatMap (used map)) then .ok () else .error .tablespaceMap

/-- Tablespaces (28-107). -/
def mapTs (o : Opt) (m : M) : Res M :=
  if o.tsMap = none ∧ o.tsAll = none then .ok m
  else
    match tsLoop o m m.targets with
    | .error e => .error e
    | .ok m' =>
      match tsCheck o m.targets with
      | .error e => .error e
      | .ok () => .ok m'

/-- `strBase` (src/common/type/string.c 328-355). -/
def strBase (s : Str) : Str := (s.reverse.takeWhile (· ≠ 47)).reverse

/-- The file is separated from the path (remap.c.inc 195-209). -/
def splitFile (t : Target) : Res Target :=
  match t.file with
  | none => .ok t
  | some _ => if strPath t.path = [] then .error .linkMap else .ok { t with path := strPath t.path, file := some (strBase t.path) }

/-- A link that is in the manifest (172-193, 195-209, 214-215). -/
def linkExisting (m : M) (t : Target) (path : Str) : Res M :=
  if t.link = false then .error .format
  else if t.tablespaceId ≠ 0 then .error .linkMap
  else
    match linkUpdate m t.name path with
    | .error e => .error e
    | .ok m =>
      match splitFile { t with path := path } with
      | .error e => .error e
      | .ok t => targetUpdate m t.name t.path t.file

/-- A link that is made for a file or path of the manifest (132-171, 195-213). -/
def linkCreate (m : M) (name path : Str) : Res M :=
  if m.paths.any (·.name == name) ∧ name ∈ m.files then .error .format
  else if name ∉ m.files ∧ m.paths.all (·.name != name) then .error .linkMap
  else
    match m.paths.find? (·.name == pgdataZ) with
    | none => .error .assert
    | some base =>
      match splitFile ⟨name, true, path, if name ∈ m.files then some dotZ else none, 0, none⟩ with
      | .error e => .error e
      | .ok t => .ok (targetAdd (linkAdd m ⟨name, path, base.user, base.group⟩) t)

/-- One link of the map (119-215). -/
def linkOne (m : M) (link path : Str) : Res M :=
  match m.targets.find? (·.name == inData link) with
  | some t => linkExisting m t path
  | none => linkCreate m (inData link) path

/-- The loop over the sorted keys (117-216). -/
def linkLoop (map : List (Str × Str)) : M → List Str → Res M
  | m, [] => .ok m
  | m, k :: ks =>
    match linkOne m k ((kvGet map k).getD []) with
    | .error e => .error e
    | .ok m => linkLoop map m ks

/-- Links (111-217). -/
def mapLinks (o : Opt) (m : M) : Res M :=
  match o.linkMap with
  | none => .ok m
  | some map => linkLoop map m (sortAsc (map.map (·.1)))

/-- One target of the last loop (226-250). The name must have more than `pg_data/` (231). -/
def removeOne (o : Opt) (m : M) (t : Target) : Res M :=
  if t.link = true ∧ t.tablespaceId = 0 then
    if t.name.length < pgdataZ.length + 1 then .error .ub
    else if (o.linkMap.bind fun map => kvGet map (t.name.drop (pgdataZ.length + 1))) = none then
      match linkRemove m t.name with
      | .error e => .error e
      | .ok m => targetRemove m t.name
    else .ok m
  else .ok m

/-- The last loop (224-251). Only the target of the iteration is removed. -/
def removeLoop (o : Opt) : M → List Target → Res M
  | m, [] => .ok m
  | m, t :: ts =>
    match removeOne o m t with
    | .error e => .error e
    | .ok m => removeLoop o m ts

/-- Links that are not mapped (219-252). -/
def removeLinks (o : Opt) (m : M) : Res M := if o.linkAll then .ok m else removeLoop o m m.targets

/-- `restoreManifestMap` (4-257). -/
def restoreMap (o : Opt) (m : M) : Res M :=
  match mapBase o m with
  | .error e => .error e
  | .ok m =>
    match mapTs o m with
    | .error e => .error e
    | .ok m =>
      match mapLinks o m with
      | .error e => .error e
      | .ok m => removeLinks o m

end Verif.Restore.Remap
