import Verif.Wait.Model

/-!
# Sending requests and retrying them

Model of `httpRequestProcess`, `httpRequestNew` and `httpRequestResponse` in `src/common/io/http/request.c`.

Simplifications:

* the network is any state with functions: `open` is `httpClientOpen`, `write` is all writes of a request and the flush, `read` is `httpResponseNew`. Any of them may fail;
* of the errors of retries only the first is kept, which is the one that is thrown. The text is in `Verif.Wait` (`errRetryAdd`);
* the loop has fuel: without it nothing is returned.
-/

namespace Verif.Http.Process

open Verif.Wait

structure Net (σ S R : Type) where
  opn : σ → Res S × σ
  write : σ → S → Res Unit × σ
  read : σ → S → Res R × σ
  code : R → Nat
  clock : σ → Nat
  sleep : σ → Nat → σ

variable {σ S R : Type}

/-- `httpResponseCodeRetry` (response.c 471-477) -/
def codeRetry (code : Nat) : Bool := code / 100 == 5 || code == 408 || code == 429

/-- How an attempt ends: with an error outside or inside of the exception handling, or with what is returned and the session that is saved. -/
inductive Att (S R : Type) where
  | openError (e : Err)
  | caught (e : Err)
  | done (r : Option R) (saved : Option S)

/-- The exception block (request.c 163-202). -/
def exchange (net : Net σ S R) (waitFor send : Bool) (s : S) (w : σ) : Att S R × σ :=
  match (if send then net.write w s else (.ok (), w)) with
  | (.error e, w) => (.caught e, w)
  | (.ok _, w) =>
    if waitFor then
      match net.read w s with
      | (.error e, w) => (.caught e, w)
      | (.ok r, w) => if codeRetry (net.code r) then (.caught .service, w) else (.done (some r) none, w)
    else (.done none (if send then some s else none), w)

/-- Use the session that was saved, or open one (request.c 143-158). -/
def attempt (net : Net σ S R) (waitFor : Bool) (saved : Option S) (w : σ) : Att S R × σ :=
  match saved with
  | some s => exchange net waitFor false s w
  | none =>
    match net.opn w with
    | (.error e, w) => (.openError e, w)
    | (.ok s, w) => exchange net waitFor true s w

/-- The loop (request.c 140-221). -/
def loop (net : Net σ S R) (waitFor : Bool) : Nat → Wait.Wait → Option Err → Option S → σ → Option (Res (Option R × Option S) × σ)
  | 0, _, _, _, _ => none
  | n + 1, wait, first, saved, w =>
    match attempt net waitFor saved w with
    | (.openError e, w) => some (.error e, w)
    | (.done r saved, w) => some (.ok (r, saved), w)
    | (.caught e, w) =>
      match waitMore wait (net.clock w) with
      | (some ms, wait) => loop net waitFor n wait (some (first.getD e)) none (net.sleep w ms)
      | (none, _) => some (.error (first.getD e), w)

/-- `httpRequestProcess` (request.c 120-229) -/
def process (net : Net σ S R) (fuel : Nat) (timeout : Nat) (waitFor : Bool) (saved : Option S) (w : σ) : Option (Res (Option R × Option S) × σ) :=
  loop net waitFor fuel (waitNew timeout (net.clock w)) none saved w

/-- `httpRequestNew` (request.c 232-267): the session that is saved. -/
def requestNew (net : Net σ S R) (fuel timeout : Nat) (w : σ) : Option (Res (Option S) × σ) :=
  match process net fuel timeout false none w with
  | none => none
  | some (.error e, w) => some (.error e, w)
  | some (.ok (_, saved), w) => some (.ok saved, w)

/-- `httpRequestResponse` (request.c 270-282) -/
def requestResponse (net : Net σ S R) (fuel timeout : Nat) (saved : Option S) (w : σ) : Option (Res (Option R) × σ) :=
  match process net fuel timeout true saved w with
  | none => none
  | some (.error e, w) => some (.error e, w)
  | some (.ok (r, _), w) => some (.ok r, w)

end Verif.Http.Process
