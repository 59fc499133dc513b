import Verif.Basic

/-! # Model of the list container, src/common/type/list.c

Memory is a block of item slots; a slot is `none` until it is written. The start of the list is an offset in the block (`pub.list -
listAlloc` in items). Any access outside of the block, any read of an unwritten slot, and any `memResize`/`memFree` of a pointer that
is not the start of the block is `Err.ub`. The comparator and `qsort` are parameters. The sizes are natural numbers: lists of 2^31
items are not considered. An item passed to `lstInsert` is a value, i.e. not a pointer into the list itself. -/

namespace Verif.Lst

/-- `SortOrder`, src/common/type/param.h / list.h. -/
inductive Order where
  | none | asc | desc
  deriving DecidableEq

/-- `struct List`, lines 17-24 and list.h:80-85. `listSizeMax` is the length of `mem`. -/
structure L (α : Type) where
  mem : List (Option α)
  off : Nat
  size : Nat
  order : Order

variable {α : Type}

/-- `lstNew`, lines 27-50. -/
def new (order : Order) : L α := ⟨[], 0, 0, order⟩

/-- Read a slot of the block. -/
def read (l : L α) (i : Nat) : Res α :=
  match l.mem[l.off + i]? with
  | some (some x) => .ok x
  | _ => .error .ub

/-- `memmove` of `n` slots in the block. -/
def memmove (mem : List (Option α)) (dst src n : Nat) : Res (List (Option α)) :=
  if dst + n ≤ mem.length ∧ src + n ≤ mem.length then .ok (mem.take dst ++ (mem.drop src).take n ++ mem.drop (dst + n))
  else .error .ub

/-- `memcpy` of an item to a slot. -/
def store (mem : List (Option α)) (i : Nat) (x : α) : Res (List (Option α)) :=
  if i < mem.length then .ok (mem.set i (some x)) else .error .ub

/-- `lstClear`, lines 53-76. -/
def clear (l : L α) : Res (L α) :=
  if l.mem = [] then .ok l
  else if l.off ≠ 0 then .error .ub
  else .ok { l with mem := [], size := 0 }

/-- `lstGet`, lines 156-172. -/
def get (l : L α) (i : Nat) : Res α := if l.size ≤ i then .error .assert else read l i

/-- `lstGetLast`, lines 174-189. -/
def getLast (l : L α) : Res α := if l.size = 0 then .error .assert else get l (l.size - 1)

/-- `bsearch` of the C library over the first `n` items. The C standard leaves the choice among equal items open; this is the usual
bisection. `cmp item slot`. -/
def bsearch (cmp : α → α → Ordering) (l : L α) (x : α) : (fuel lo hi : Nat) → Res (Option Nat)
  | 0, _, _ => .ok none
  | fuel + 1, lo, hi =>
    if lo < hi then
      match read l ((lo + hi) / 2) with
      | .error e => .error e
      | .ok y =>
        match cmp x y with
        | .lt => bsearch cmp l x fuel lo ((lo + hi) / 2)
        | .gt => bsearch cmp l x fuel ((lo + hi) / 2 + 1) hi
        | .eq => .ok (some ((lo + hi) / 2))
    else .ok none

/-- The iterative search, lines 217-221. -/
def linear (cmp : α → α → Ordering) (l : L α) (x : α) : (n i : Nat) → Res (Option Nat)
  | 0, _ => .ok none
  | n + 1, i =>
    match get l i with
    | .error e => .error e
    | .ok y => if cmp x y = .eq then .ok (some i) else linear cmp l x n (i + 1)

/-- `lstFind`/`lstFindIdx`, lines 192-241: index of the item found. `lstComparatorDesc` (lines 149-153) switches the parameters. -/
def find (cmp : α → α → Ordering) (l : L α) (x : α) : Res (Option Nat) :=
  if l.mem = [] then .ok none
  else match l.order with
    | .asc => bsearch cmp l x l.size 0 l.size
    | .desc => bsearch (fun a b => cmp b a) l x l.size 0 l.size
    | .none => linear cmp l x l.size 0

/-- Make space in `lstInsert`, lines 297-330. -/
def grow (l : L α) : Res (L α) :=
  if l.size = l.mem.length then
    if l.mem = [] then .ok { l with mem := List.replicate 8 none, off := 0 }
    else if l.off ≠ 0 then .error .ub
    else .ok { l with mem := l.mem ++ List.replicate l.mem.length none }
  else if l.off ≠ 0 ∧ l.size + l.off = l.mem.length then
    match memmove l.mem 0 l.off l.size with
    | .error e => .error e
    | .ok mem => .ok { l with mem := mem, off := 0 }
  else .ok l

/-- Place the item in `lstInsert`, lines 332-342. -/
def place (l : L α) (i : Nat) (x : α) : Res (L α) :=
  match (if i ≠ l.size then memmove l.mem (l.off + i + 1) (l.off + i) (l.size - i) else .ok l.mem) with
  | .error e => .error e
  | .ok mem =>
    match store mem (l.off + i) x with
    | .error e => .error e
    | .ok mem' => .ok { l with mem := mem', size := l.size + 1, order := .none }

/-- `lstInsert`, lines 284-345. The assertion of line 293 is not in the production build. -/
def insert (l : L α) (i : Nat) (x : α) : Res (L α) :=
  if i ≤ l.size then
    match grow l with
    | .error e => .error e
    | .ok l' => place l' i x
  else .error .ub

/-- `lstAdd`, list.h:140-144. -/
def add (l : L α) (x : α) : Res (L α) := insert l l.size x

/-- `lstRemoveIdx`, lines 348-382. The assertion of line 357 is not in the production build. -/
def removeIdx (l : L α) (i : Nat) : Res (L α) :=
  if l.size ≤ i then .error .ub
  else if i = 0 then .ok { l with off := l.off + 1, size := l.size - 1 }
  else
    match memmove l.mem (l.off + i) (l.off + i + 1) (l.size - 1 - i) with
    | .error e => .error e
    | .ok mem => .ok { l with mem := mem, size := l.size - 1 }

/-- `lstRemove`, lines 384-404. -/
def remove (cmp : α → α → Ordering) (l : L α) (x : α) : Res (L α × Bool) :=
  match find cmp l x with
  | .error e => .error e
  | .ok none => .ok (l, false)
  | .ok (some i) =>
    match removeIdx l i with
    | .error e => .error e
    | .ok l' => .ok (l', true)

/-- `lstRemoveLast`, lines 406-419. -/
def removeLast (l : L α) : Res (L α) := if l.size = 0 then .error .assert else removeIdx l (l.size - 1)

/-- The items, as `qsort` reads them. -/
def items (l : L α) : Nat → (i : Nat) → Res (List α)
  | 0, _ => .ok []
  | n + 1, i =>
    match read l i with
    | .error e => .error e
    | .ok x =>
      match items l n (i + 1) with
      | .error e => .error e
      | .ok xs => .ok (x :: xs)

/-- `lstSort`, lines 422-458. `qsort` of the C library takes the comparator and the items. -/
def sort (qsort : (α → α → Ordering) → List α → List α) (cmp : α → α → Ordering) (l : L α) (order : Order) : Res (L α) :=
  if l.mem = [] then .ok { l with order := order }
  else
    match order with
    | .none => .ok { l with order := .none }
    | .asc =>
      match items l l.size 0 with
      | .error e => .error e
      | .ok xs => .ok { l with
          mem := l.mem.take l.off ++ (qsort cmp xs).map some ++ l.mem.drop (l.off + l.size)
          order := .asc }
    | .desc =>
      match items l l.size 0 with
      | .error e => .error e
      | .ok xs => .ok { l with
          mem := l.mem.take l.off ++ (qsort (fun a b => cmp b a) xs).map some ++ l.mem.drop (l.off + l.size)
          order := .desc }

/-- Operations of a program on the list. -/
inductive Op (α : Type) where
  | add (x : α)
  | insert (i : Nat) (x : α)
  | removeIdx (i : Nat)
  | remove (x : α)
  | removeLast
  | get (i : Nat)
  | getLast
  | find (x : α)
  | sort (order : Order)
  | clear

/-- What an operation returns to the program. -/
inductive Out (α : Type) where
  | unit
  | item (x : α)
  | index (i : Option Nat)
  | bool (b : Bool)
  | error (e : Err)

/-- One operation; a thrown error leaves the list as it was. -/
def step (qsort : (α → α → Ordering) → List α → List α) (cmp : α → α → Ordering) (l : L α) : Op α → L α × Out α
  | .add x => match add l x with
    | .ok l' => (l', .unit)
    | .error e => (l, .error e)
  | .insert i x => match insert l i x with
    | .ok l' => (l', .unit)
    | .error e => (l, .error e)
  | .removeIdx i => match removeIdx l i with
    | .ok l' => (l', .unit)
    | .error e => (l, .error e)
  | .remove x => match remove cmp l x with
    | .ok (l', b) => (l', .bool b)
    | .error e => (l, .error e)
  | .removeLast => match removeLast l with
    | .ok l' => (l', .unit)
    | .error e => (l, .error e)
  | .get i => match get l i with
    | .ok x => (l, .item x)
    | .error e => (l, .error e)
  | .getLast => match getLast l with
    | .ok x => (l, .item x)
    | .error e => (l, .error e)
  | .find x => match find cmp l x with
    | .ok i => (l, .index i)
    | .error e => (l, .error e)
  | .sort order => match sort qsort cmp l order with
    | .ok l' => (l', .unit)
    | .error e => (l, .error e)
  | .clear => match clear l with
    | .ok l' => (l', .unit)
    | .error e => (l, .error e)

/-- A program. -/
def run (qsort : (α → α → Ordering) → List α → List α) (cmp : α → α → Ordering) : L α → List (Op α) → L α × List (Out α)
  | l, [] => (l, [])
  | l, op :: ops =>
    let r := step qsort cmp l op
    let s := run qsort cmp r.1 ops
    (s.1, r.2 :: s.2)

end Verif.Lst
