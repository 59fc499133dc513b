import Verif.Pack.Model

/-!
# What a pack is

A pack is a list of fields with ascending numbers, each of which has a value or is a container with fields of its own. `specWrite` says
what each call adds to it and `specRead` what each call finds in it, without bytes, tags or buffers. `none` means that nothing is
claimed: for numbers of fields that do not fit, and for the calls that are not right, see `specSeek`.
-/

namespace Verif.Pack

inductive Scalar where
  | bool (v : Bool)
  | i32 (v : Int32)
  | i64 (v : Int64)
  | time (v : Int64)
  | mode (v : UInt32)
  | u32 (v : UInt32)
  | u64 (v : UInt64)
  | strId (v : UInt64)
  | str (v : Str)
  | bin (v : Str)
  | pack (v : Str)
  deriving DecidableEq, Repr

/-- A field is a value or a container. -/
inductive Val where
  | leaf (s : Scalar)
  | arr (fields : List (Nat × Val))
  | obj (fields : List (Nat × Val))

abbrev Doc := List (Nat × Val)

def Scalar.ty : Scalar → Ty
  | .bool _ => .bool | .i32 _ => .i32 | .i64 _ => .i64 | .time _ => .time | .mode _ => .mode | .u32 _ => .u32 | .u64 _ => .u64
  | .strId _ => .strId | .str _ => .str | .bin _ => .bin | .pack _ => .pack

def Val.ty : Val → Ty
  | .leaf s => s.ty | .arr _ => .array | .obj _ => .obj

def Val.isLeaf : Val → Bool
  | .leaf _ => true | _ => false

/-- Numbers of fields are below this (UINT_MAX - 1). -/
def idLimit : Nat := 2 ^ 32 - 2

/-! ## Writing -/

/-- A container that is being written: its type, its number in the container around it, the last number, the NULLs since, and the
fields so far. -/
structure Open where
  kind : Ty
  id : Nat
  last : Nat
  nulls : Nat
  fields : Doc

/-- Add a field: its number is the one given, or the next one after the last field and the NULLs. -/
def specPut (id : Nat) (v : Val) : List Open → Option (List Open)
  | [] => none
  | o :: os =>
    let i := if id = 0 then o.last + o.nulls + 1 else id
    if o.last < i ∧ i < idLimit then some ({ o with last := i, nulls := 0, fields := o.fields ++ [(i, v)] } :: os) else none

/-- Add nothing, but use a number. -/
def specNull : List Open → Option (List Open)
  | [] => none
  | o :: os => if o.last + o.nulls + 1 < idLimit then some ({ o with nulls := o.nulls + 1 } :: os) else none

/-- A value that is equal to the default is not written unless this is asked for. -/
def specDefault (id : Nat) (dw : Bool) (isDefault : Bool) (v : Val) (st : List Open) : Option (List Open) :=
  if isDefault ∧ dw = false then specNull st else specPut id v st

/-- Begin a container. -/
def specBegin (kind : Ty) (id : Nat) : List Open → Option (List Open)
  | [] => none
  | o :: os =>
    let i := if id = 0 then o.last + o.nulls + 1 else id
    if o.last < i ∧ i < idLimit then some (⟨kind, i, 0, 0, []⟩ :: { o with last := i, nulls := 0 } :: os) else none

def mkVal (kind : Ty) (fields : Doc) : Val := if kind = .array then .arr fields else .obj fields

/-- End a container: it becomes a field of the one around it. -/
def specEnd (kind : Ty) : List Open → Option (List Open)
  | c :: o :: os => if c.kind = kind then some ({ o with fields := o.fields ++ [(c.id, mkVal kind c.fields)] } :: os) else none
  | _ => none

/-- A list of strings is an array with the strings as fields 1, 2, ...; a NULL in it uses a number. -/
def strFields : Nat → List (Option Str) → Doc
  | _, [] => []
  | i, none :: ss => strFields (i + 1) ss
  | i, some s :: ss => (i, .leaf (.str s)) :: strFields (i + 1) ss

def specWrite (st : List Open) : WOp → Option (List Open)
  | .null => specNull st
  | .bool id v dw dv => specDefault id dw (v = dv) (.leaf (.bool v)) st
  | .i32 id v dw dv => specDefault id dw (v = dv) (.leaf (.i32 v)) st
  | .i64 id v dw dv => specDefault id dw (v = dv) (.leaf (.i64 v)) st
  | .time id v dw dv => specDefault id dw (v = dv) (.leaf (.time v)) st
  | .mode id v dw dv => specDefault id dw (v = dv) (.leaf (.mode v)) st
  | .u32 id v dw dv => specDefault id dw (v = dv) (.leaf (.u32 v)) st
  | .u64 id v dw dv => specDefault id dw (v = dv) (.leaf (.u64 v)) st
  | .strId id v dw dv => specDefault id dw (v = dv) (.leaf (.strId v)) st
  | .bin _ none => specNull st
  | .bin id (some s) => if s.length < 2 ^ 64 then specPut id (.leaf (.bin s)) st else none
  | .pack _ none => specNull st
  | .pack id (some s) => if s.length < 2 ^ 64 then specPut id (.leaf (.pack s)) st else none
  | .str _ none dw dv => if dv = none ∧ dw = false then specNull st else none
  | .str id (some s) dw dv => if s.length < 2 ^ 64 then specDefault id dw (dv = some s) (.leaf (.str s)) st else none
  | .strLst _ none => specNull st
  | .strLst id (some ss) =>
    if ss.length + 1 < idLimit ∧ ∀ s ∈ ss, ∀ t, s = some t → t.length < 2 ^ 64 then specPut id (.arr (strFields 1 ss)) st else none
  | .arrayBegin id => specBegin .array id st
  | .arrayEnd => specEnd .array st
  | .objBegin id => specBegin .obj id st
  | .objEnd => specEnd .obj st

/-- What a sequence of calls writes, when each container that was begun was ended. -/
def docOf (ops : List WOp) : Option Doc :=
  match ops.foldlM specWrite [⟨.obj, 0, 0, 0, []⟩] with
  | some [o] => some o.fields
  | _ => none

/-! ## Reading -/

/-- A container that is being read: the last number that was read or passed, whether the next field was looked at, and the fields that
were not read so far. -/
structure Cur where
  kind : Ty
  last : Nat
  seen : Bool
  fields : Doc

/-- The last number in a list of fields. -/
def lastId (dflt : Nat) (fs : Doc) : Nat := (fs.getLast?.map (·.1)).getD dflt

/-- Search for a field: pass the fields with smaller numbers. The number must be one that was not passed so far. Nothing is claimed when
a container would be passed. -/
def specSeek (c : Cur) (id : Nat) : Option (Res (Nat × Cur)) :=
  let t := if id = 0 then c.last + 1 else id
  if t ≤ c.last then some (.error .format)
  else if idLimit ≤ t then none
  else
    let passed := c.fields.takeWhile (·.1 < t)
    if passed.all (·.2.isLeaf) then
      some (.ok (t, { c with last := lastId c.last passed, seen := true, fields := c.fields.dropWhile (·.1 < t) }))
    else none

/-- Search for a field and read it: `none` if there is no such field, an error if it has another type. -/
def specGet (ty : Ty) (id : Nat) (c : Cur) : Option (Res (Option Val × Cur)) :=
  match specSeek c id with
  | none => none
  | some (.error e) => some (.error e)
  | some (.ok (t, c)) =>
    match c.fields with
    | (i, v) :: fs =>
      if i = t then if v.ty = ty then some (.ok (some v, { c with last := t, seen := false, fields := fs })) else some (.error .format)
      else some (.ok (none, { c with last := t }))
    | [] => some (.ok (none, { c with last := t }))

/-- The value of a call, from what was found. -/
def outOf (dflt : Out) : Option Val → Out
  | some (.leaf (.bool v)) => .bool v
  | some (.leaf (.i32 v)) => .int v.toInt
  | some (.leaf (.i64 v)) => .int v.toInt
  | some (.leaf (.time v)) => .int v.toInt
  | some (.leaf (.mode v)) => .nat v.toNat
  | some (.leaf (.u32 v)) => .nat v.toNat
  | some (.leaf (.u64 v)) => .nat v.toNat
  | some (.leaf (.strId v)) => .nat v.toNat
  | some (.leaf (.str v)) => .bytes (some v)
  | some (.leaf (.bin v)) => .bytes (some v)
  | some (.leaf (.pack v)) => .bytes (some v)
  | _ => dflt

/-- Read a value in the innermost container. -/
def specField (ty : Ty) (id : Nat) (dflt : Out) : List Cur → Option (Res (Out × List Cur))
  | [] => none
  | c :: cs =>
    match specGet ty id c with
    | none => none
    | some (.error e) => some (.error e)
    | some (.ok (v, c)) => some (.ok (outOf dflt v, c :: cs))

/-- The strings of an array that has nothing else. -/
def strsOf : Doc → Option (List Str)
  | [] => some []
  | (_, .leaf (.str s)) :: fs => (strsOf fs).map (s :: ·)
  | _ => none

/-- The numbers of the fields are `i`, `i + 1`, ... -/
def consecutive : Nat → Doc → Bool
  | _, [] => true
  | i, (j, _) :: fs => j == i && consecutive (i + 1) fs

def specRead (st : List Cur) : ROp → Option (Res (Out × List Cur))
  | .null id =>
    match st with
    | [] => none
    | c :: cs =>
      match specSeek c id with
      | none => none
      | some (.error e) => some (.error e)
      | some (.ok (t, c)) =>
        if c.fields.head?.map (·.1) = some t then some (.ok (.bool false, c :: cs)) else some (.ok (.bool true, { c with last := t } :: cs))
  -- the next field, which must not have been looked at before
  | .next =>
    match st with
    | [] => none
    | c :: cs =>
      if c.seen then none
      else some (.ok (.next (c.fields.head?.map fun f => (f.1, f.2.ty)), { c with seen := true } :: cs))
  -- pass the next value, which must have the next number
  | .consume =>
    match st with
    | { kind, last, seen := _, fields := (i, v) :: fs } :: cs =>
      if i = last + 1 ∧ v.isLeaf then some (.ok (.none, ⟨kind, i, false, fs⟩ :: cs)) else none
    | _ => none
  | .bool id dv => specField .bool id (.bool dv) st
  | .i32 id dv => specField .i32 id (.int dv.toInt) st
  | .i64 id dv => specField .i64 id (.int dv.toInt) st
  | .time id dv => specField .time id (.int dv.toInt) st
  | .mode id dv => specField .mode id (.nat dv.toNat) st
  | .u32 id dv => specField .u32 id (.nat dv.toNat) st
  | .u64 id dv => specField .u64 id (.nat dv.toNat) st
  | .strId id dv => specField .strId id (.nat dv.toNat) st
  | .bin id => specField .bin id (.bytes none) st
  | .pack id => specField .pack id (.bytes none) st
  | .str id dv => specField .str id (.bytes dv) st
  -- an array of strings without gaps
  | .strLst id =>
    match st with
    | [] => none
    | c :: cs =>
      match specGet .array id c with
      | some (.ok (some (.arr fs), c)) =>
        if consecutive 1 fs ∧ fs.length + 1 < idLimit then (strsOf fs).map fun ss => .ok (.list (some (ss.map some)), c :: cs) else none
      | some (.ok (none, c)) => some (.ok (.list none, c :: cs))
      | some (.error e) => some (.error e)
      | _ => none
  -- a container must be there
  | .arrayBegin id =>
    match st with
    | [] => none
    | c :: cs =>
      match specGet .array id c with
      | some (.ok (some (.arr fs), c)) => some (.ok (.none, ⟨.array, 0, false, fs⟩ :: c :: cs))
      | some (.error e) => some (.error e)
      | _ => none
  | .objBegin id =>
    match st with
    | [] => none
    | c :: cs =>
      match specGet .obj id c with
      | some (.ok (some (.obj fs), c)) => some (.ok (.none, ⟨.obj, 0, false, fs⟩ :: c :: cs))
      | some (.error e) => some (.error e)
      | _ => none
  -- what was not read is passed
  | .arrayEnd => specClose .array st
  | .objEnd => specClose .obj st
  | .end =>
    match st with
    | [] => none
    | [c] => if c.fields.all (·.2.isLeaf) then some (.ok (.none, [])) else none
    | _ => some (.error .format)
where
  specClose (kind : Ty) : List Cur → Option (Res (Out × List Cur))
    | [] => none
    | [_] => some (.error .format)
    | c :: cs =>
      if c.kind ≠ kind then some (.error .format)
      else if c.fields.all (·.2.isLeaf) then some (.ok (.none, cs)) else none

def specReads (st : List Cur) : List ROp → Option (Res (List Out × List Cur))
  | [] => some (.ok ([], st))
  | op :: ops =>
    match specRead st op with
    | none => none
    | some (.error e) => some (.error e)
    | some (.ok (o, st)) =>
      match specReads st ops with
      | none => none
      | some (.error e) => some (.error e)
      | some (.ok (os, st)) => some (.ok (o :: os, st))

end Verif.Pack
