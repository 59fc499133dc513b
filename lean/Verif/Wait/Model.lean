import Verif.Basic

/-!
# Waiting and retrying

Model of `src/common/wait.c` and `src/common/error/retry.c`.

Simplifications:

* what `timeMSec` returns is given with each call; times are unsigned integers of 64 bits, and `sub` is their subtraction. The clock does
  not reach 2^64;
* `waitMore` returns how long it sleeps, and nothing if there is no more time;
* the sum of sleep times is not reduced modulo 2^64: it is at most the remaining time, and the parts are at most 999999000 (`waitNew`);
* the type of an error is a number, and a message is not formatted.
-/

namespace Verif.Wait

/-- `struct Wait` (wait.c 13-20) -/
structure Wait where
  waitTime : Nat
  sleepTime : Nat
  sleepPrevTime : Nat
  beginTime : Nat
  retry : Nat
  deriving DecidableEq, Repr

/-- Subtraction of `TimeMSec`, modulo 2^64. -/
def sub (a b : Nat) : Nat := if b ≤ a then a - b else 2 ^ 64 - (b - a)

/-- `waitNew` (wait.c 23-54) -/
def waitNew (waitTime now : Nat) : Wait where
  waitTime := waitTime
  sleepTime := if 1000 ≤ waitTime then 1000 / 10 else waitTime / 10
  sleepPrevTime := 0
  beginTime := now
  retry := 2

/-- `waitRemains` (wait.c 57-106) -/
def waitRemains (w : Wait) (now : Nat) : Nat × Wait :=
  if 0 < w.sleepTime then
    let elapsed := sub now w.beginTime
    let (result, w) :=
      if elapsed < w.waitTime then
        let result := w.waitTime - elapsed
        let sleepTime := w.sleepTime + w.sleepPrevTime
        (result, { w with sleepPrevTime := w.sleepTime, sleepTime := if sleepTime > result then result else sleepTime })
      else if w.retry ≠ 0 then (w.sleepTime, w)
      else (0, { w with sleepTime := 0 })
    (result, if w.retry > 0 then { w with retry := w.retry - 1 } else w)
  else (0, w)

/-- `waitMore` (wait.c 109-130) -/
def waitMore (w : Wait) (now : Nat) : Option Nat × Wait :=
  let (remains, w) := waitRemains w now
  if remains > 0 then (some w.sleepTime, w) else (none, w)

/-- Calls of `waitMore` one after the other. -/
def calls : Wait → List Nat → List (Option Nat)
  | _, [] => []
  | w, t :: ts => (waitMore w t).1 :: calls (waitMore w t).2 ts

/-- `ErrorRetryItem` (retry.c 26-33) -/
structure Item where
  message : List UInt8
  total : Nat
  type : Nat
  retryFirst : Nat
  retryLast : Nat
  deriving DecidableEq, Repr

/-- `struct ErrorRetry` (retry.c 17-23) -/
structure ErrRetry where
  type : Option Nat
  message : List UInt8
  list : List Item
  timeBegin : Nat
  deriving DecidableEq, Repr

/-- `errRetryNew` (retry.c 36-52) -/
def errRetryNew (now : Nat) : ErrRetry := ⟨none, [], [], now⟩

/-- Update the error found (retry.c 132-136), or add it (retry.c 113-130). -/
def itemAdd (type : Nat) (message : List UInt8) (retryTime : Nat) : List Item → List Item
  | [] => [⟨message, 1, type, retryTime, retryTime⟩]
  | i :: l => if i.message = message then { i with total := i.total + 1, retryLast := retryTime } :: l else i :: itemAdd type message retryTime l

/-- `errRetryAdd` (retry.c 85-140) -/
def errRetryAdd (e : ErrRetry) (type : Nat) (message : List UInt8) (now : Nat) : ErrRetry :=
  match e.type with
  | none => { e with type := some type, message := message }
  | some _ => { e with list := itemAdd type message (sub now e.timeBegin) e.list }

/-- A line of `errRetryMessage` (retry.c 68-80): the type, how often if it says so, when, and the message. -/
structure Line where
  type : Nat
  total : Option Nat
  first : Nat
  last : Nat
  message : List UInt8
  deriving DecidableEq, Repr

/-- `errRetryMessage` (retry.c 55-82) -/
def errRetryMessage (e : ErrRetry) : List UInt8 × List Line :=
  (e.message, e.list.map fun i => ⟨i.type, if i.retryFirst = i.retryLast then none else some i.total, i.retryFirst, i.retryLast, i.message⟩)

end Verif.Wait
