import Verif.Io.GroupProps

/-!
# Writing through filters

Model of `src/common/io/write.c` (line numbers without a file are of this file).

The driver is what is done to it: the list of writes and seeks. Errors of the driver are left out: they end the call at that point and
nothing is done after them.

`fuel` bounds the number of turns of the loops, `none` is the result if it is not enough.
-/

namespace Verif.Io

/-- What is done to the driver. -/
inductive Dop where
  | write (d : Str)
  | seek (p : Nat)
  deriving DecidableEq, Repr

/-- `IoWrite` (16-27), after `ioWriteOpen`. -/
structure Writer (σ : Type) where
  group : Group σ
  output : Buf
  position : Nat
  log : List Dop

variable {σ : Type}

/-- `ioWriteNew` and `ioWriteOpen` (30-86), with `ioBufferSize()` and the filters. -/
def writeOpen (size : Nat) (buffer : Ops σ × σ) (filters : List (Ops σ × σ)) : Writer σ :=
  ⟨«open» size buffer filters, ⟨[], size⟩, 0, []⟩

/-- The loop of `ioWrite` (103-115). `p` is the fuel for the filter group. -/
def writeLoop (p : Nat) : Nat → Writer σ → Str → Option (Except Fail (Writer σ))
  | 0, _, _ => none
  | k + 1, w, d =>
    match process p w.group (some d) w.output with
    | none => none
    | some (.error e) => some (.error e)
    | some (.ok (g, b)) =>
      let w1 := if b.room = 0 then ⟨g, { b with data := [] }, w.position + b.data.length, w.log ++ [.write b.data]⟩
        else { w with group := g, output := b }
      if g.inputSame then writeLoop p k w1 d else some (.ok w1)

/-- `ioWrite` (89-119) -/
def ioWrite (fuel : Nat) (w : Writer σ) (d : Str) : Option (Except Fail (Writer σ)) :=
  if d = [] then some (.ok w) else writeLoop fuel fuel w d

/-- `ioWriteFlush` (214-232) -/
def ioWriteFlush (w : Writer σ) : Writer σ :=
  if w.output.data = [] then w else { w with output := { w.output with data := [] }, log := w.log ++ [.write w.output.data] }

/-- `ioWriteSeek` (235-260) -/
def ioWriteSeek (w : Writer σ) (p : Nat) : Writer σ :=
  if p = w.position then w
  else { ioWriteFlush w with position := p, log := (ioWriteFlush w).log ++ [.seek p] }

/-- The loop of `ioWriteClose` (274-285). -/
def closeLoop (p : Nat) : Nat → Writer σ → Option (Except Fail (Writer σ))
  | 0, _ => none
  | k + 1, w =>
    match process p w.group none w.output with
    | none => none
    | some (.error e) => some (.error e)
    | some (.ok (g, b)) =>
      let w1 := if b.room = 0 ∨ (g.done = true ∧ b.data ≠ []) then
          { w with group := g, output := { b with data := [] }, log := w.log ++ [.write b.data] }
        else { w with group := g, output := b }
      if !g.done then closeLoop p k w1 else some (.ok w1)

/-- `ioWriteClose` (263-299) -/
def ioWriteClose (fuel : Nat) (w : Writer σ) : Option (Except Fail (Writer σ)) := closeLoop fuel fuel w

/-- Several writes. -/
def writeAll (fuel : Nat) : List Str → Writer σ → Option (Except Fail (Writer σ))
  | [], w => some (.ok w)
  | d :: ds, w =>
    match ioWrite fuel w d with
    | some (.ok w') => writeAll fuel ds w'
    | r => r

end Verif.Io
