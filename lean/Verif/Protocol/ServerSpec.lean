import Verif.Protocol.Model

/-!
# What the server is for

A server that has a session under each number at most once, and no list.
-/

namespace Verif.Protocol.Spec

variable {α D W : Type}

/-- The sessions and the rest of the process. -/
structure Srv (D W : Type) where
  sess : Nat → Option D
  world : W

def Srv.put (st : Srv D W) (id : Nat) (d : Option D) : Srv D W :=
  { st with sess := fun k => if k = id then d else st.sess k }

/-- How one try to do what was asked ends. -/
inductive Try (α D W : Type) where
  | done (st : Srv D W) (close : Bool) (data : Option α)
  | failed (st : Srv D W) (e : SErr)

/-- One try to do something in a session, or without one. The handler sees the data of this session and of no other. -/
def tryIn (h : Handler α D W) (st : Srv D W) (q : Req α) (d : Option D) : Option (Try α D W) :=
  match q.type with
  | .opn => none
  | .prc =>
    match h.prcSession, h.prc with
    | some f, _ =>
      match f st.world q.param d with
      | (w, d', .error e) => some (.failed ({ st with world := w }.put q.sessionId (d.map fun x => d'.getD x)) e)
      | (w, d', .ok (out, false)) => some (.done ({ st with world := w }.put q.sessionId (d.map fun x => d'.getD x)) false out)
      | (w, _, .ok (out, true)) => some (.done ({ st with world := w }.put q.sessionId none) true out)
    | none, some f =>
      match f st.world q.param with
      | (w, .error e) => some (.failed { st with world := w } e)
      | (w, .ok out) => some (.done { st with world := w } false out)
    | none, none => none
  | .cls =>
    match h.cls with
    | none => some (.done (st.put q.sessionId none) true none)
    | some f =>
      match f st.world q.param d with
      | (w, d', .error e) => some (.failed ({ st with world := w }.put q.sessionId (d.map fun x => d'.getD x)) e)
      | (w, _, .ok out) => some (.done ({ st with world := w }.put q.sessionId none) true out)
  | .cnc => some (.done (st.put q.sessionId none) true none)

/-- One try: open a session, or find the one that the request is for. -/
def tryOnce (h : Handler α D W) (st : Srv D W) (q : Req α) : Option (Try α D W) :=
  if q.type = .opn then
    match h.opn with
    | none => none
    | some f =>
      match f st.world q.param with
      | (w, .error e) => some (.failed { st with world := w } e)
      | (w, .ok (data, d)) => some (.done ({ st with world := w }.put q.sessionId d) d.isNone data)
  else if q.isOpen && (st.sess q.sessionId).isNone && q.type != .cnc then some (.failed st errNoSession)
  else tryIn h st q (if q.isOpen then st.sess q.sessionId else none)

/-- Try again as often as is allowed while it fails. -/
def tries (h : Handler α D W) (q : Req α) : Nat → Srv D W → List SErr → Option (SOut (Srv D W) α)
  | n, st, errs =>
    match tryOnce h st q with
    | none => none
    | some (.done st close data) => some (.reply st close (.data data))
    | some (.failed st e) =>
      if e.fatal then some (.fatal e)
      else
        match n with
        | 0 =>
          match errs ++ [e] with
          | [] => none
          | first :: rest => some (.reply st false (.err first rest))
        | n + 1 => tries h q n st (errs ++ [e])

/-- The answer to a request. -/
def serve (handlers : List (Handler α D W)) (retries : Nat) (st : Srv D W) (q : Req α) : Option (SOut (Srv D W) α) :=
  match handlers.find? (fun h => h.command == q.command) with
  | some h => tries h q retries st []
  | none =>
    if q.command = cmdExit then some (.exit st)
    else if q.command = cmdNoop then some (.reply st false (.data none))
    else some (.fatal errInvalid)

/-- A request as a client makes it: what is asked for without an open session is asked for under a number that has none, and only an
open session is closed. -/
def Fair (st : Srv D W) (q : Req α) : Prop :=
  (q.isOpen = false → st.sess q.sessionId = none) ∧ (q.type = .cls → q.isOpen = true) ∧ (q.type = .opn → q.isOpen = false)

/-- A handler that is asked to work without a session does not say that the session is to be closed. -/
def HandlerOk (h : Handler α D W) : Prop :=
  ∀ f, h.prcSession = some f → ∀ w p out, (f w p none).2.2 ≠ .ok (out, true)

end Verif.Protocol.Spec
