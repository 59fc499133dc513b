import Verif.Io.WriteModel
import Verif.Varint.Model

/-!
# Reading through filters

Model of `src/common/io/read.c` (line numbers without a file are of this file), of `ioReadBuf` and `ioCopy` of `src/common/io/io.c`, and of the
driver `src/common/io/bufferRead.c`.

Simplifications:

* a driver is any state machine with a function to read and a function that says whether the end was reached; whether it says so has no
  side effects;
* the buffer `output` of a reader is allocated when it is first used, and is empty until then: here it is empty from the start;
* errors thrown by the functions of this file are results next to the state of the reader, errors of filters and drivers end everything;
* `fuel` bounds the number of turns of the loops, `none` is the result if it is not enough.
-/

namespace Verif.Io

/-- `IoReadInterface` (`src/common/io/read.intern.h` 14-30). `block` is the flag of the same name: `read` waits until the buffer is full. `read` is given the room
in the buffer and whether to block, and returns what it adds to the buffer. -/
structure Drv (δ : Type) where
  block : Bool
  read : δ → (room : Nat) → (block : Bool) → Res (δ × Str)
  eof : δ → Bool

/-- What ends everything: an error of the filter group or of the driver. -/
inductive RFail where
  | group (e : Fail)
  | driver (e : Err)
  deriving DecidableEq, Repr

/-- `IoRead` (15-21) after `ioReadOpen`: the filter group, the input (`none` after the end), `ioBufferSize()` when it was made, the driver, `eofAll`, the bytes used of
the internal output buffer and the position in it. -/
structure Reader (σ δ : Type) where
  group : Group σ
  input : Option Str
  size : Nat
  drv : δ
  eof : Bool
  output : Str
  pos : Nat

variable {σ δ : Type}

/-- `ioReadNew` and `ioReadOpen` (25-80). -/
def readOpen (size : Nat) (buffer : Ops σ × σ) (filters : List (Ops σ × σ)) (d : δ) : Reader σ δ :=
  ⟨«open» size buffer filters, some [], size, d, false, [], 0⟩

/-- Get new input (124-141): the input, and the driver. -/
def fetch (dr : Drv δ) (r : Reader σ δ) (room : Nat) (block : Bool) : Res (Option Str × δ) :=
  match r.input with
  | none => .ok (none, r.drv)
  | some _ =>
    if dr.eof r.drv then .ok (none, r.drv)
    else
      match dr.read r.drv (if dr.block = true ∧ room < r.size then room else r.size) block with
      | .error e => .error e
      | .ok (d, w) => .ok (some w, d)

/-- Line 153. -/
def setEof (dr : Drv δ) (r : Reader σ δ) : Reader σ δ := { r with eof := dr.eof r.drv && r.group.done }

/-- `ioReadInternal` (99-157). `start` is `bufferUsedBegin` and `p` the fuel for the filter group. -/
def readInternal (dr : Drv δ) (p : Nat) (block : Bool) (start : Nat) : Nat → Reader σ δ → Buf → Option (Except RFail (Reader σ δ × Buf))
  | 0, _, _ => none
  | k + 1, r, b =>
    if r.eof = true ∨ b.room = 0 then some (.ok (r, b))
    else if r.group.inputSame then
      match process p r.group r.input b with
      | none => none
      | some (.error e) => some (.error (.group e))
      | some (.ok (g, b')) => readInternal dr p block start k (setEof dr { r with group := g }) b'
    else
      match fetch dr r b.room block with
      | .error e => some (.error (.driver e))
      | .ok (inp, d) =>
        if inp = some [] then
          if block = false ∧ start < b.data.length then some (.ok ({ r with input := inp, drv := d }, b))
          else readInternal dr p block start k (setEof dr { r with input := inp, drv := d }) b
        else
          match process p r.group inp b with
          | none => none
          | some (.error e) => some (.error (.group e))
          | some (.ok (g, b')) =>
            if block = false ∧ start < b'.data.length then some (.ok ({ r with group := g, input := inp, drv := d }, b'))
            else readInternal dr p block start k (setEof dr { r with group := g, input := inp, drv := d }) b'

/-- Copy from the internal output buffer (179-191 and 227-239). -/
def copyOut (r : Reader σ δ) (b : Buf) : Reader σ δ × Buf :=
  let n := min (r.output.length - r.pos) b.room
  ({ r with pos := r.pos + n }, { b with data := b.data ++ (r.output.drop r.pos).take n })

/-- `ioRead` (163-197) -/
def ioRead (dr : Drv δ) (fuel : Nat) (r : Reader σ δ) (b : Buf) : Option (Except RFail (Reader σ δ × Buf)) :=
  readInternal dr fuel true (copyOut r b).2.data.length fuel (copyOut r b).1 (copyOut r b).2

/-- Read into the internal output buffer, which holds `d` (for instance 256-259). -/
def readOutput (dr : Drv δ) (fuel : Nat) (r : Reader σ δ) (d : Str) : Option (Except RFail (Reader σ δ)) :=
  match readInternal dr fuel false d.length fuel { r with output := [], pos := 0 } ⟨d, r.size⟩ with
  | none => none
  | some (.error e) => some (.error e)
  | some (.ok (r', b)) => some (.ok { r' with output := b.data, pos := 0 })

/-- The loop of `ioReadSmall` (222-262). -/
def smallLoop (dr : Drv δ) (p : Nat) : Nat → Reader σ δ → Buf → Option (Except RFail (Reader σ δ × Buf))
  | 0, _, _ => none
  | k + 1, r, b =>
    if (copyOut r b).2.full then some (.ok (copyOut r b))
    else if r.size ≤ (copyOut r b).2.room then
      match readInternal dr p true (copyOut r b).2.data.length p (copyOut r b).1 (copyOut r b).2 with
      | none => none
      | some (.error e) => some (.error e)
      | some (.ok (r', b')) => if b'.full || r'.eof then some (.ok (r', b')) else smallLoop dr p k r' b'
    else
      match readOutput dr p (copyOut r b).1 [] with
      | none => none
      | some (.error e) => some (.error e)
      | some (.ok r') => if r'.eof then some (.ok (r', (copyOut r b).2)) else smallLoop dr p k r' (copyOut r b).2

/-- `ioReadSmall` (200-265) -/
def ioReadSmall (dr : Drv δ) (fuel : Nat) (r : Reader σ δ) (b : Buf) : Option (Except RFail (Reader σ δ × Buf)) :=
  smallLoop dr fuel fuel r b

/-- The loop of `ioReadLineParam` (291-347). -/
def lineLoop (dr : Drv δ) (p : Nat) (allowEof : Bool) : Nat → Reader σ δ → Option (Except RFail (Reader σ δ × Res Str))
  | 0, _ => none
  | k + 1, r =>
    let rest := r.output.drop r.pos
    if 10 ∈ rest then
      let line := rest.takeWhile (· ≠ 10)
      some (.ok ({ r with pos := r.pos + line.length + 1 }, .ok line))
    else if r.size ≤ rest.length then some (.ok ({ r with output := rest, pos := 0 }, .error .fileRead))
    else if r.eof then some (.ok ({ r with output := rest, pos := 0 }, if allowEof then .ok rest else .error .fileRead))
    else
      match readOutput dr p r rest with
      | none => none
      | some (.error e) => some (.error e)
      | some (.ok r') => lineLoop dr p allowEof k r'

/-- `ioReadLineParam` (268-351) -/
def ioReadLine (dr : Drv δ) (fuel : Nat) (r : Reader σ δ) (allowEof : Bool) : Option (Except RFail (Reader σ δ × Res Str)) :=
  lineLoop dr fuel allowEof fuel r

/-- Get more bytes if needed (376-388). -/
def more (dr : Drv δ) (p : Nat) (r : Reader σ δ) : Option (Except RFail (Reader σ δ)) :=
  if r.output.length - r.pos = 0 then readOutput dr p r [] else some (.ok r)

/-- The loop of `ioReadVarIntU64` (373-405). The first argument is the number of turns left. -/
def varLoop (dr : Drv δ) (p : Nat) : Nat → Nat → UInt64 → Reader σ δ → Option (Except RFail (Reader σ δ × Res UInt64))
  | 0, _, _, r => some (.ok (r, .error .format))
  | k + 1, idx, result, r =>
    match more dr p r with
    | none => none
    | some (.error e) => some (.error e)
    | some (.ok r') =>
      match r'.output.drop r'.pos with
      | [] => some (.ok (r', .error .fileRead))
      | byte :: _ =>
        let r'' := { r' with pos := r'.pos + 1 }
        let result := result ||| ((byte &&& 0x7f).toUInt64 <<< (UInt64.ofNat (7 * idx)))
        if byte < 0x80 then some (.ok (r'', .ok result)) else varLoop dr p k (idx + 1) result r''

/-- `ioReadVarIntU64` (354-408) -/
def ioReadVarInt (dr : Drv δ) (fuel : Nat) (r : Reader σ δ) : Option (Except RFail (Reader σ δ × Res UInt64)) :=
  varLoop dr fuel Varint.bufferSizeMax 0 0 r

/-- The loop of `ioReadFlush` (449-454). -/
def flushLoop (dr : Drv δ) (p : Nat) : Nat → Reader σ δ → Nat → Option (Except RFail (Reader σ δ × Nat))
  | 0, _, _ => none
  | k + 1, r, n =>
    match ioRead dr p r ⟨[], r.size⟩ with
    | none => none
    | some (.error e) => some (.error e)
    | some (.ok (r', b)) => if r'.eof then some (.ok (r', n + b.data.length)) else flushLoop dr p k r' (n + b.data.length)

/-- `ioReadFlush` (431-464). The result is the number of bytes, or the error if there are some and that is asked for. -/
def ioReadFlush (dr : Drv δ) (fuel : Nat) (r : Reader σ δ) (errorOnBytes : Bool) : Option (Except RFail (Reader σ δ × Res Nat)) :=
  match (if r.eof then some (.ok (r, 0)) else flushLoop dr fuel fuel r 0) with
  | none => none
  | some (.error e) => some (.error e)
  | some (.ok (r', n)) => some (.ok (r', if n ≠ 0 ∧ errorOnBytes = true then .error .fileRead else .ok n))

/-- The loop of `ioReadBuf` (io.c 76-81). -/
def bufLoop (dr : Drv δ) (p : Nat) : Nat → Reader σ δ → Buf → Option (Except RFail (Reader σ δ × Str))
  | 0, _, _ => none
  | k + 1, r, b =>
    match ioRead dr p r { b with cap := b.cap + r.size } with
    | none => none
    | some (.error e) => some (.error e)
    | some (.ok (r', b')) => if r'.eof then some (.ok (r', b'.data)) else bufLoop dr p k r' b'

/-- `ioReadBuf` (io.c 63-90) -/
def ioReadBuf (dr : Drv δ) (fuel : Nat) (r : Reader σ δ) : Option (Except RFail (Reader σ δ × Str)) :=
  bufLoop dr fuel fuel r ⟨[], 0⟩

/-- The room in the buffer for a turn of `ioCopy` (io.c 111-121). -/
def copyRoom (size : Nat) (limit : Option Nat) (copied : Nat) : Nat :=
  match limit with
  | some l => if l - copied < size then l - copied else size
  | none => size

/-- Is it the last turn of `ioCopy` because of the limit (io.c 118)? -/
def copyLast (size : Nat) (limit : Option Nat) (copied : Nat) : Bool :=
  match limit with
  | some l => decide (l - copied < size)
  | none => false

/-- The loop of `ioCopy` (io.c 108-131). `copied ≤ limit` always, so that the difference is not negative. The reader was made with the same `ioBufferSize()`. -/
def copyLoop (dr : Drv δ) (p : Nat) (limit : Option Nat) : Nat → Reader σ δ → Writer σ → (copied : Nat) →
    Option (Except RFail (Reader σ δ × Writer σ))
  | 0, _, _, _ => none
  | k + 1, r, w, copied =>
    match ioRead dr p r ⟨[], copyRoom r.size limit copied⟩ with
    | none => none
    | some (.error e) => some (.error e)
    | some (.ok (r', b)) =>
      match ioWrite p w b.data with
      | none => none
      | some (.error e) => some (.error (.group e))
      | some (.ok w') =>
        if copyLast r.size limit copied || r'.eof then some (.ok (r', w')) else copyLoop dr p limit k r' w' (copied + b.data.length)

/-- `ioCopy` (io.c 93-135) -/
def ioCopy (dr : Drv δ) (fuel : Nat) (r : Reader σ δ) (w : Writer σ) (limit : Option Nat) :
    Option (Except RFail (Reader σ δ × Writer σ)) :=
  copyLoop dr fuel limit fuel r w 0

/-- `IoBufferRead` (`src/common/io/bufferRead.c` 35-82): the bytes not read yet and `eof`. -/
def bufferDrv : Drv (Str × Bool) where
  block := false
  read s room _ :=
    if s.2 then .ok (s, [])
    else if room < s.1.length then .ok ((s.1.drop room, false), s.1.take room)
    else .ok (([], true), s.1)
  eof s := s.2

end Verif.Io
