import Verif.Basic
import Verif.Common.Str

/-!
# Names of options

Model of `cfgParseOption` (`src/config/parse.c` 565-802), the function that turns a name written on
the command line, in the environment or in a configuration file into an option and a key.

Simplifications:

* names are byte lists without a NUL (they come from `argv`, `environ` and lines of a text file), so
  `strchr`, `strncmp` and `strcmp` see the whole name;
* `bsearch` over the generated tables (sorted by name, no duplicates) is the search for the entry with
  this name;
* the `beta` flag is left out, it is only copied.
-/

namespace Verif.Config

/-- The rules of an option that `cfgParseOption` reads, `ParseRuleOption`
(`src/config/parse.c` 128-149). -/
structure OptRule where
  name : Str
  negate : Bool
  reset : Bool
  multi : Bool
  /-- the option belongs to a group, i.e. it has a key -/
  group : Bool
  /-- a deprecated name without a key is the same as the name of the option -/
  deprecateMatch : Bool
  deriving DecidableEq, Repr

/-- A deprecated name, `ParseRuleOptionDeprecate` (`src/config/parse.c` 288-294). -/
structure DepRule where
  name : Str
  /-- the option it stands for -/
  id : Nat
  /-- may have a key -/
  indexed : Bool
  /-- may have no key -/
  unindexed : Bool
  deriving DecidableEq, Repr

/-- The tables `parseRuleOption` and `parseRuleOptionDeprecate` (`src/config/parse.auto.c.inc` 870,
11744). -/
structure Table where
  opts : List OptRule
  deps : List DepRule

/-- `CfgParseOptionResult` (`src/config/parse.h` 93-103). -/
structure OptRes where
  id : Nat
  keyIdx : Nat
  negate : Bool
  reset : Bool
  deprecated : Bool
  multi : Bool
  deriving DecidableEq, Repr

/-- `'-'` -/
def dash : UInt8 := 45

/-- `OPTION_PREFIX_NEGATE` (`src/config/parse.c` 567), `no-` -/
def noPre : Str := [110, 111, 45]

/-- `OPTION_PREFIX_RESET` (`src/config/parse.c` 568), `reset-` -/
def resetPre : Str := [114, 101, 115, 101, 116, 45]

/-- `OPTION_NAME_SIZE_MAX` (`src/config/parse.c` 569) -/
def nameMax : Nat := 64

/-- `CFG_OPTION_KEY_MAX` (`src/config/parse.c` 26) -/
def keyMax : UInt32 := 256

/-- `isdigit` of the C locale. -/
def isDigit (c : UInt8) : Bool := 48 ≤ c && c ≤ 57

/-- The loop that adds up the key (`src/config/parse.c` 628-634). The argument lists the bytes before
the dash from the last to the first; `keyIdx` and `multiplier` are `unsigned int`, so both wrap. The
result is the tally and the bytes that are left. -/
def tally : Str → UInt32 → UInt32 → UInt32 × Str
  | [], _, acc => (acc, [])
  | c :: cs, mult, acc =>
    if isDigit c then tally cs (mult * 10) (acc + (c.toUInt32 - 48) * mult) else (acc, c :: cs)

/-- Strip `no-` or `reset-` (`src/config/parse.c` 597-613). -/
def stripPre (name : Str) : Bool × Bool × Str :=
  if noPre.isPrefixOf name then (true, false, name.drop noPre.length)
  else if resetPre.isPrefixOf name then (false, true, name.drop resetPre.length)
  else (false, false, name)

/-- Strip the key in front of the first dash (`src/config/parse.c` 615-659): is there a key, the key
index and the name without the key. -/
def stripKey (name : Str) : Res (Bool × Nat × Str) :=
  let pre := name.takeWhile (· ≠ dash)
  let tail := name.dropWhile (· ≠ dash)
  if tail.isEmpty then .ok (false, 0, name)
  else if pre.isEmpty then .error .optionInvalid
  else
    let (key, rest) := tally pre.reverse 1 0
    if rest.isEmpty then .error .optionInvalid
    else if rest.length = pre.length then .ok (false, 0, name)
    else if key < 1 ∨ key > keyMax then .error .optionInvalid
    else .ok (true, (key - 1).toNat, rest.reverse ++ tail)

/-- The indexes of the names that start with the given one, counted from `i`. -/
def matching (base : Str) : List Str → Nat → List Nat
  | [], _ => []
  | n :: ns, i =>
    if base.isPrefixOf n then i :: matching base ns (i + 1) else matching base ns (i + 1)

/-- The loop that looks for a single name that starts with the given one
(`src/config/parse.c` 673-690, 704-721): the indexes of all names that do, taken if there is exactly
one. -/
def single (names : List Str) (base : Str) : Option Nat :=
  match matching base names 0 with
  | [i] => some i
  | _ => none

/-- `bsearch` for an exact match. -/
def exact (names : List Str) (base : Str) : Option Nat :=
  names.findIdx? (· = base)

/-- The search for the option (`src/config/parse.c` 661-751): the option and whether a deprecated name
was used. -/
def findOpt (T : Table) (prefixMatch ignoreMissing indexed : Bool) (base : Str) :
    Res (Option (Nat × Bool)) :=
  let names := T.opts.map OptRule.name
  let opt :=
    match exact names base with
    | some i => some i
    | none => if prefixMatch then single names base else none
  match opt with
  | some i => .ok (some (i, false))
  | none =>
    let dnames := T.deps.map DepRule.name
    let dep :=
      match exact dnames base with
      | some i => some i
      | none => if prefixMatch then single dnames base else none
    match dep with
    | none => .ok none
    | some i =>
      match T.deps[i]? with
      | none => .error .ub
      | some d =>
        if indexed && !d.indexed then .error .optionInvalid
        else if !indexed && !d.unindexed && !ignoreMissing then .error .optionInvalid
        else .ok (some (d.id, true))

/-- `cfgParseOption` (`src/config/parse.c` 571-802). -/
def parseName (T : Table) (prefixMatch ignoreMissing : Bool) (cand : Str) : Res (Option OptRes) :=
  if cand.length > nameMax then .error .optionInvalid
  else
    let (negate, reset, name) := stripPre cand
    match stripKey name with
    | .error e => .error e
    | .ok (indexed, keyIdx, base) =>
      match findOpt T prefixMatch ignoreMissing indexed base with
      | .error e => .error e
      | .ok none => .ok none
      | .ok (some (id, dep)) =>
        match T.opts[id]? with
        | none => .error .ub
        | some o =>
          if negate && !o.negate then .error .optionInvalid
          else if reset && !o.reset then .error .optionInvalid
          else
            let dep := dep || (!indexed && o.deprecateMatch)
            if !dep && indexed && !o.group then .error .optionInvalid
            else if !dep && !indexed && o.group && !ignoreMissing then .error .optionInvalid
            else .ok (some ⟨id, keyIdx, negate, reset, dep, o.multi⟩)

end Verif.Config
