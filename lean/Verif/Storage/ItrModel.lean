import Verif.Basic

/-!
# Storage iterator

Model of src/storage/iterator.c and of the loops over it in src/storage/storage.c.

What is simplified. A driver is a function from the path below the root of the iteration to the entries it has there, which does not
change while the iterator is used. Of an entry only the name and whether it is a path matter; everything else is carried along.
Names are lists of characters. The expression is whether a name matches it. Memory is not modelled.
-/

namespace Verif.Storage

abbrev Name := List Char

/-- `StorageInfo` (storage/info.h): the name, whether the type is a path, and the rest. -/
structure Entry (ι : Type) where
  name : Name
  isPath : Bool
  info : ι
  deriving DecidableEq, Repr

/-- `SortOrder` (common/type/list.h). -/
inductive SortOrder where
  | unsorted | asc | desc
  deriving DecidableEq, Repr

/-- What an iterator is made with (iterator.c 19-26). `list` is `storageInterfaceListP` of the driver for a path below the root of
the iteration, `none` for the root itself; it is none when the path does not exist. -/
structure Param (ι : Type) where
  list : Option Name → Option (List (Entry ι))
  recurse : Bool
  sort : SortOrder
  regExp : Option (Name → Bool)

/-- `strcmp` on two names, as used by `lstComparatorZ` (common/type/list.c): the first is not after the second. -/
def leZ : Name → Name → Bool
  | [], _ => true
  | _ :: _, [] => false
  | a :: as, b :: bs => if a = b then leZ as bs else a.toNat < b.toNat

/-- Put an entry into a list in order. -/
def insertBy {ι : Type} (le : Entry ι → Entry ι → Bool) (x : Entry ι) : List (Entry ι) → List (Entry ι)
  | [] => [x]
  | y :: ys => if le x y then x :: y :: ys else y :: insertBy le x ys

/-- `qsort` (common/type/list.c 438-447): the entries in order. -/
def sortBy {ι : Type} (le : Entry ι → Entry ι → Bool) : List (Entry ι) → List (Entry ι)
  | [] => []
  | x :: xs => insertBy le x (sortBy le xs)

/-- `storageLstSort` (storage/list.h 51-55). The names in a list are different, so that it does not matter that `qsort` is not
stable. -/
def sortList {ι : Type} (s : SortOrder) (l : List (Entry ι)) : List (Entry ι) :=
  match s with
  | .unsorted => l
  | .asc => sortBy (fun a b => leZ a.name b.name) l
  | .desc => sortBy (fun a b => leZ b.name a.name) l

/-- `StorageIteratorInfo` (iterator.c 35-41). -/
structure Frame (ι : Type) where
  pathSub : Option Name
  list : List (Entry ι)
  idx : Nat
  skip : Bool

/-- `StorageIterator` (iterator.c 17-32): the stack, top first, and the info to be returned by next, which is none when it was
returned. -/
structure Itr (ι : Type) where
  stack : List (Frame ι)
  next : Option (Entry ι)

variable {ι : Type}

/-- The name below the root (iterator.c 206-212). -/
def join : Option Name → Name → Name
  | none, n => n
  | some p, n => p ++ '/' :: n

/-- `storageItrPathAdd` (iterator.c 52-109): the stack, whether the path exists and whether it has content. -/
def pathAdd (P : Param ι) (stack : List (Frame ι)) (pathSub : Option Name) : List (Frame ι) × Bool × Bool :=
  match P.list pathSub with
  | none => (stack, false, false)
  | some [] => (stack, true, false)
  | some (e :: es) => (⟨pathSub, sortList P.sort (e :: es), 0, false⟩ :: stack, true, true)

/-- What one pass does: there is nothing more, the search goes on, or an entry is found. -/
inductive Step (ι : Type) where
  | done
  | go (stack : List (Frame ι))
  | emit (e : Entry ι) (stack : List (Frame ι))

/-- Whether the expression lets an entry pass (iterator.c 223). -/
def matchP (P : Param ι) (e : Entry ι) : Bool :=
  match P.regExp with
  | none => true
  | some f => f e.name

/-- One pass of the loop over a list (iterator.c 201-250). `f` is the top of the stack and `S` the rest, `e` the entry with its name
below the root. `add` is the stack after the path was added, if it was. -/
def visit (P : Param ι) (f : Frame ι) (S : List (Frame ι)) (e : Entry ι) : Step ι :=
  let add := if e.isPath && P.recurse && !f.skip then pathAdd P [] (some e.name) else ([], false, false)
  if !matchP P e then .go (add.1 ++ { f with skip := false, idx := f.idx + 1 } :: S)
  else if add.2.2 && P.sort == .desc then .go (add.1 ++ { f with skip := true } :: S)
  else .emit e (add.1 ++ { f with skip := false, idx := f.idx + 1 } :: S)

/-- One pass of the search (iterator.c 195-262): an entry of the list on the top of the stack, or the list is removed because all its
entries were looked at. A list is removed only when it is on the top, which it is when nothing was added above it. -/
def step (P : Param ι) : List (Frame ι) → Step ι
  | [] => .done
  | f :: S =>
    match f.list[f.idx]? with
    | none => .go S
    | some e => visit P f S { e with name := join f.pathSub e.name }

/-- The loops of `storageItrMore` (iterator.c 195-264) end with an entry and a stack, or with nothing. -/
inductive Search (P : Param ι) : List (Frame ι) → Option (Entry ι × List (Frame ι)) → Prop where
  | done {S : List (Frame ι)} (h : step P S = .done) : Search P S none
  | emit {S S' : List (Frame ι)} {e : Entry ι} (h : step P S = .emit e S') : Search P S (some (e, S'))
  | go {S S' : List (Frame ι)} {r : Option (Entry ι × List (Frame ι))} (h : step P S = .go S') (h2 : Search P S' r) : Search P S r

/-- `storageItrMore` (iterator.c 181-265) returns this and leaves that. -/
inductive More (P : Param ι) : Itr ι → Bool → Itr ι → Prop where
  | again {S : List (Frame ι)} {e : Entry ι} : More P ⟨S, some e⟩ true ⟨S, some e⟩
  | found {S S' : List (Frame ι)} {e : Entry ι} (h : Search P S (some (e, S'))) : More P ⟨S, none⟩ true ⟨S', some e⟩
  | nothing {S : List (Frame ι)} (h : Search P S none) : More P ⟨S, none⟩ false ⟨[], none⟩

/-- The loop `while (storageItrMore(itr)) ... storageItrNext(itr)` (for example storage.c 446-447; iterator.c 268-281) ends and has
seen these entries. -/
inductive Lists (P : Param ι) : Itr ι → List (Entry ι) → Prop where
  | nil {itr itr' : Itr ι} (h : More P itr false itr') : Lists P itr []
  | cons {itr : Itr ι} {S : List (Frame ι)} {e : Entry ι} {l : List (Entry ι)} (h : More P itr true ⟨S, some e⟩)
    (h2 : Lists P ⟨S, none⟩ l) : Lists P itr (e :: l)

/-- `storageItrNew` (iterator.c 112-178): an error when the root does not exist and that was asked for, no iterator when that was
asked for, else the iterator. -/
def itrNew (P : Param ι) (errorOnMissing nullOnMissing : Bool) : Res (Option (Itr ι)) :=
  match pathAdd P [] none with
  | (S, true, _) => .ok (some ⟨S, none⟩)
  | (S, false, _) =>
    if errorOnMissing then .error .pathMissing
    else if nullOnMissing then .ok none
    else .ok (some ⟨S, none⟩)

/-- The loop with a bound on the passes, to try it. -/
def drain (P : Param ι) : Nat → List (Frame ι) → Option (List (Entry ι))
  | 0, _ => none
  | n + 1, S =>
    match step P S with
    | .done => some []
    | .go S' => drain P n S'
    | .emit e S' => (drain P n S').map (e :: ·)

end Verif.Storage
