import Verif.Common.Str

/-!
# Filter groups

Model of `src/common/io/filter/group.c` (line numbers without a file are of this file) and of the wrapper functions of a filter in
`src/common/io/filter/filter.c`.

A filter is any state machine with the functions of `IoFilterInterface` (`src/common/io/filter/filter.h` 24-60). A filter may throw any
error. All filters of a group share a type of states, which is no restriction as the type may be a sum.

Simplifications:

* a buffer is its used bytes and its size; the size of the buffers between the filters is a parameter (`ioBufferSize()`);
* `done` functions and `inputSame` functions have no side effects;
* the results of filters (354-384) are functions of the final states and are left out.
-/

namespace Verif.Io

/-- What ends a call: an error thrown by a filter or a failed `CHECK` or a missing buffer. -/
inductive Fail where
  | filter (e : Err)
  | assert
  deriving DecidableEq, Repr

/-- `IoFilterInterface`. `out` says whether the filter has the function `inOut` instead of `in`. `inOut` is given the bytes used and
the room in the output buffer and returns what it adds to it. -/
structure Ops (σ : Type) where
  out : Bool
  inFn : σ → Str → Res σ
  inOut : σ → Option Str → (used room : Nat) → Res (σ × Str)
  inputSame : Option (σ → Bool)
  done : Option (σ → Bool)

/-- A buffer: the bytes used and the size. -/
structure Buf where
  data : Str
  cap : Nat
  deriving DecidableEq, Repr

/-- `bufFull` (`src/common/type/buffer.h` 65-69). -/
def Buf.full (b : Buf) : Bool := decide (b.cap ≤ b.data.length)

/-- `bufRemains` (`src/common/type/buffer.h` 86-90). -/
def Buf.room (b : Buf) : Nat := b.cap - b.data.length

/-- `IoFilterData` (21-27) with the filter. The input is the output of the nearest filter before that has one, or the input of the
group, see `pass`. -/
structure Slot (σ : Type) where
  ops : Ops σ
  st : σ
  flushing : Bool
  output : Option Buf

variable {σ : Type}

/-- `ioFilterInputSame` (filter.c 132-141) -/
def same (o : Ops σ) (s : σ) : Bool :=
  match o.inputSame with
  | some f => f s
  | none => false

/-- The result of `ioFilterDone` (filter.c 114-128) when the filter is flushing. -/
def fin (o : Ops σ) (s : σ) : Bool :=
  match o.done with
  | some f => f s
  | none => !same o s

/-- `ioFilterInputSame` (filter.c 132-141) -/
def Slot.inputSame (s : Slot σ) : Bool := same s.ops s.st

/-- `ioFilterDone` (filter.c 114-128) -/
def Slot.done (s : Slot σ) : Bool := s.flushing && fin s.ops s.st

/-- Errors of a filter pass through. -/
def lift {α : Type} : Res α → Except Fail α
  | .ok a => .ok a
  | .error e => .error (.filter e)

/-- `ioFilterProcessIn` (filter.c 61-80). -/
def processIn (s : Slot σ) : Option Str → Except Fail (Slot σ)
  | none => .ok { s with flushing := true }
  | some b =>
    -- the two CHECKs
    if b = [] ∨ s.flushing = true then .error .assert
    else match s.ops.inFn s.st b with
      | .ok st => .ok { s with st := st }
      | .error e => .error (.filter e)

/-- The call of the driver in `ioFilterProcessInOut` (filter.c 97-101) with the CHECK that follows it. -/
def callInOut (s : Slot σ) (b : Buf) (input : Option Str) : Except Fail (Slot σ) :=
  if s.done then (if s.inputSame = true ∧ b.data = [] then .error .assert else .ok s)
  else match s.ops.inOut s.st input b.data.length b.room with
    | .error e => .error (.filter e)
    | .ok (st, w) =>
      if same s.ops st = true ∧ b.data ++ w = [] then .error .assert
      else .ok { s with st := st, output := some { b with data := b.data ++ w } }

/-- `ioFilterProcessInOut` (filter.c 84-106). -/
def processInOut (s : Slot σ) (input : Option Str) : Except Fail (Slot σ) :=
  match s.output with
  | none => .error .assert
  | some b =>
    match input with
    | none => callInOut { s with flushing := true } b none
    | some c => if c = [] ∨ s.flushing = true then .error .assert else callInOut s b (some c)

/-- Does the loop stop after a filter with output (311-313)? -/
def stops (s : Slot σ) : Bool :=
  match s.output with
  | some b => !b.full && !s.done
  | none => false

/-- Null the output buffer if the filter is done and it is empty (320-323). -/
def nullOut (s : Slot σ) : Slot σ :=
  match s.output with
  | some b => if s.done = true ∧ b.data = [] then { s with output := none } else s
  | none => s

/-- `bufUsedZero(filterData->inputLocal)` (308-309), on the filter that the buffer is the output of. -/
def clearIf (s : Slot σ) (c : Bool) : Slot σ :=
  if c then { s with output := s.output.map fun b => { b with data := [] } } else s

/-- `*filterData->input` (192-205): the output of the filter if it has one, otherwise what is in front of it. -/
def inputAfter (s : Slot σ) (input : Option Str) : Option Str := if s.ops.out then s.output.map (·.data) else input

/-- The loop over the filters (288-324) from the first filter of the list. The second component of the result says that the input of
the list was used up and is to be cleared if it is a local buffer (308), the third that `inputSame` of the group was set (304). -/
def pass (input : Option Str) : List (Slot σ) → Except Fail (List (Slot σ) × Bool × Bool)
  | [] => .ok ([], false, false)
  | s :: rest =>
    if s.done then
      match pass (inputAfter (nullOut s) input) rest with
      | .error e => .error e
      | .ok (rest', c, f) => .ok (clearIf (nullOut s) (s.ops.out && c) :: rest', !s.ops.out && c, f)
    else if s.ops.out then
      match processInOut s input with
      | .error e => .error e
      | .ok s1 =>
        if stops s1 then .ok (s1 :: rest, !s1.inputSame, s1.inputSame)
        else
          match pass (inputAfter (nullOut s1) input) rest with
          | .error e => .error e
          | .ok (rest', c, f) => .ok (clearIf (nullOut s1) c :: rest', !s1.inputSame, s1.inputSame || f)
    else
      match processIn s input with
      | .error e => .error e
      | .ok s1 =>
        match pass input rest with
        | .error e => .error e
        | .ok (rest', c, f) => .ok (s1 :: rest', c, f)

/-- The loop over the filters (288-324) from the filter with index `k`. -/
def passFrom : Nat → Option Str → List (Slot σ) → Except Fail (List (Slot σ) × Bool × Bool)
  | 0, input, l => pass input l
  | _ + 1, _, [] => .ok ([], false, false)
  | k + 1, input, s :: rest =>
    match passFrom k (inputAfter s input) rest with
    | .error e => .error e
    | .ok (rest', c, f) => .ok (clearIf s (s.ops.out && c) :: rest', !s.ops.out && c, f)

/-- Search from the end for a filter that needs the same input (261-278). -/
def lastSame : List (Slot σ) → Option Nat
  | [] => none
  | s :: rest =>
    match lastSame rest with
    | some k => some (k + 1)
    | none => if s.inputSame then some 0 else none

/-- The output buffer given by the caller, the output of the last filter (253). `none` if it was nulled, when it is empty. -/
def outBuf : List (Slot σ) → Option Buf
  | [] => none
  | [s] => s.output
  | _ :: s :: rest => outBuf (s :: rest)

/-- `bufFull(output)`. A buffer that was nulled is empty. -/
def outFull (l : List (Slot σ)) : Bool :=
  match outBuf l with
  | some b => b.full
  | none => false

/-- The loop of `ioFilterGroupProcess` (256-326). `flag` is `pub.inputSame`. `none` if `fuel` passes are not enough. -/
def loop (input : Option Str) : (fuel : Nat) → (flag : Bool) → List (Slot σ) → Option (Except Fail (List (Slot σ)))
  | 0, _, _ => none
  | fuel + 1, flag, l =>
    if flag = true ∧ lastSame l = none then some (.ok l)
    else
      match passFrom (if flag then (lastSame l).getD 0 else 0) input l with
      | .error e => some (.error e)
      | .ok (l', _, f) => if !outFull l' && (flag || f) then loop input fuel (flag || f) l' else some (.ok l')

/-- `IoFilterGroup` (47-56). -/
structure Group (σ : Type) where
  slots : List (Slot σ)
  inputSame : Bool
  done : Bool

/-- Set the output of the last filter (253). -/
def setOut (b : Buf) : List (Slot σ) → List (Slot σ)
  | [] => []
  | [s] => [{ s with output := some b }]
  | s :: t :: rest => s :: setOut b (t :: rest)

/-- `ioFilterGroupProcess` (229-352). The result are the group and the output buffer. -/
def process (fuel : Nat) (g : Group σ) (input : Option Str) (output : Buf) : Option (Except Fail (Group σ × Buf)) :=
  match loop input fuel g.inputSame (setOut output g.slots) with
  | none => none
  | some (.error e) => some (.error e)
  | some (.ok l) =>
    -- lines 328-349
    some (.ok (⟨l, l.any Slot.inputSame, !l.any Slot.inputSame && l.all Slot.done⟩, (outBuf l).getD { output with data := [] }))

/-- `ioBufferNew` (`src/common/io/filter/buffer.c` 43-104). The state is `inputPos` and `inputSame`. -/
def bufferOps {σ : Type} (get : σ → Nat × Bool) (set : Nat × Bool → σ) : Ops σ where
  out := true
  inFn s _ := .ok s
  inOut s input _ room :=
    match input with
    | none => .error .assert
    | some b =>
      let pos := (get s).1
      let n := min (b.length - pos) room
      let w := (b.drop pos).take n
      .ok (if pos + n = b.length then set (0, false) else set (pos + n, true), w)
  inputSame := some fun s => (get s).2
  done := none

/-- Output buffers for the filters that are not the last (185-216); filters that have no output get no buffer. -/
def withBuffers (size : Nat) : List (Ops σ × σ) → List (Slot σ)
  | [] => []
  | [(o, s)] => [⟨o, s, false, none⟩]
  | (o, s) :: x :: rest => ⟨o, s, false, if o.out then some ⟨[], size⟩ else none⟩ :: withBuffers size (x :: rest)

/-- Does the last filter have output (177-180)? -/
def lastOut : List (Ops σ × σ) → Bool
  | [] => false
  | [(o, _)] => o.out
  | _ :: x :: rest => lastOut (x :: rest)

/-- `ioFilterGroupOpen` (166-226). `buffer` is `ioBufferNew()`. -/
def «open» (size : Nat) (buffer : Ops σ × σ) (filters : List (Ops σ × σ)) : Group σ :=
  ⟨withBuffers size (if lastOut filters then filters else filters ++ [buffer]), false, false⟩

end Verif.Io
