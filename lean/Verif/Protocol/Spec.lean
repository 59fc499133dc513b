import Verif.Protocol.Model

/-!
# What a caller of the protocol may rely on

The specification has no connection, no list of sessions and no stored responses. Every request is answered at once, and the answer
is kept with the session that asked until that session asks for it. A call that the interface forbids has no meaning (`none`).

The connection delivers answers in the order of the requests. `sent` counts the requests and `seen` is the number of the last answer
that has arrived. They only decide which sessions may be given up while they still wait for an answer.
-/

namespace Verif.Protocol.Spec

variable {S α : Type}

/-- An answer that the session has not asked for yet: the number of the request, whether the server closed the session, and the
message. -/
structure Pending (α : Type) where
  seq : Nat
  close : Bool
  msg : Msg α

/-- A session. `started` says that it was created async or was opened, `ended` that it was closed or cancelled by the caller. -/
structure Sess (α : Type) where
  command : Nat
  async : Bool
  isOpen : Bool
  started : Bool
  ended : Bool
  pending : Option (Pending α)

/-- The server and the sessions. -/
structure St (S α : Type) where
  server : S
  total : Nat
  sess : Nat → Option (Sess α)
  sent : Nat
  seen : Nat

/-- What a call gives back for an answer: the data, or the error the server reported is thrown. -/
def result : Msg α → Out (Option α)
  | .data d => .ok d
  | .err a b => .raised a b

/-- Change one session. -/
def St.put (st : St S α) (id : Nat) (x : Option (Sess α)) : St S α :=
  { st with sess := fun k => if k = id then x else st.sess k }

/-- A request that is answered at once: the state, whether the session was closed, and the message. There is no meaning when the
server ends instead of answering. -/
def ask (step : S → Req α → SOut S α) (st : St S α) (q : Req α) : Option (St S α × Bool × Msg α) :=
  match step st.server q with
  | .reply sv close msg => some ({ st with server := sv, sent := st.sent + 1 }, close, msg)
  | _ => none

/-- The answer to the last request has arrived, and so have all before it. -/
def St.waited (st : St S α) : St S α := { st with seen := st.sent }

/-- The answer to request `n` has arrived, and so have all before it. -/
def St.waitedFor (st : St S α) (n : Nat) : St S α := { st with seen := max st.seen n }

/-- A session that can be used. -/
def live (st : St S α) (id : Nat) : Option (Sess α) :=
  match st.sess id with
  | some s => if s.ended then none else some s
  | none => none

/-- End a session that has no answer outstanding: the server is told if the session is open. -/
def finish (step : S → Req α → SOut S α) (st : St S α) (id : Nat) (s : Sess α) : Option (St S α) :=
  if s.isOpen then
    match ask step st ⟨s.command, .cnc, id, true, none⟩ with
    | some (st, true, .data _) => some (st.waited.put id (some { s with isOpen := false, ended := true, pending := none }))
    | _ => none
  else some (st.put id (some { s with ended := true, pending := none }))

/-- Give a session up, as cancelling and freeing do. An answer that is outstanding is dropped. There is no meaning when it has
arrived and the session is open, or when it has not arrived and is an error. -/
def giveUp (step : S → Req α → SOut S α) (st : St S α) (id : Nat) (s : Sess α) : Option (St S α) :=
  match s.pending with
  | none => finish step st id s
  | some p =>
    if p.seq ≤ st.seen then
      if s.isOpen then none else finish step st id s
    else
      match p.msg with
      | .err _ _ => none
      | .data _ => finish step (st.waitedFor p.seq) id { s with isOpen := s.isOpen && !p.close, pending := none }

/-- One call: the new state and what the call gives back. -/
def call (step : S → Req α → SOut S α) (st : St S α) : Call α → Option (St S α × Out (Option α))
  | .new command async =>
    some (({ st with total := st.total + 1 } : St S α).put (st.total + 1) (some ⟨command, async, false, async, false, none⟩), .ok none)
  | .request command param => simple st command param
  | .noop => simple st cmdNoop none
  | .keepAlive true => simple st cmdNoop none
  | .keepAlive false => some (st, .ok none)
  | .open id param =>
    match live st id with
    | none => none
    | some s =>
      if s.isOpen || s.pending.isSome || (!s.async && s.started) then none
      else
        match ask step st ⟨s.command, .opn, id, false, param⟩ with
        | none => none
        | some (st, close, msg) => some (st.waited.put id (some { s with isOpen := !close, started := true }), result msg)
  | .sessRequest id param =>
    match live st id with
    | none => none
    | some s =>
      if s.pending.isSome then none
      else
        match ask step st ⟨s.command, .prc, id, s.isOpen, param⟩ with
        | none => none
        | some (st, close, msg) => some (st.waited.put id (some { s with isOpen := s.isOpen && !close }), result msg)
  | .requestAsync id param =>
    match live st id with
    | none => none
    | some s =>
      if s.pending.isSome || !s.async then none
      else
        match ask step st ⟨s.command, .prc, id, s.isOpen, param⟩ with
        | none => none
        | some (st, close, msg) => some (st.put id (some { s with pending := some ⟨st.sent, close, msg⟩ }), .ok none)
  | .response id =>
    match live st id with
    | none => none
    | some s =>
      match s.pending with
      | none => none
      | some p =>
        some ((st.waitedFor p.seq).put id (some { s with isOpen := s.isOpen && !p.close, pending := none }), result p.msg)
  | .close id =>
    match live st id with
    | none => none
    | some s =>
      if !s.isOpen || s.pending.isSome then none
      else
        match ask step st ⟨s.command, .cls, id, true, none⟩ with
        | some (st, true, .data d) => some (st.waited.put id (some { s with isOpen := false, ended := true }), .ok d)
        | some (st, close, .err a b) => some (st.waited.put id (some { s with isOpen := !close }), .raised a b)
        | _ => none
  | .cancel id =>
    match live st id with
    | none => none
    | some s =>
      if !s.started then none
      else
        match giveUp step st id s with
        | none => none
        | some st => some (st, .ok none)
  | .free id =>
    match st.sess id with
    | none => none
    | some s =>
      if s.ended || !s.started then some (st.put id none, .ok none)
      else
        match giveUp step st id s with
        | none => none
        | some st => some (st.put id none, .ok none)
where
  /-- A request without a session: a session is used up for it. -/
  simple (st : St S α) (command : Nat) (param : Option α) : Option (St S α × Out (Option α)) :=
    match ask step st ⟨command, .prc, st.total + 1, false, param⟩ with
    | none => none
    | some (st, _, msg) => some ({ st.waited with total := st.total + 1 }, result msg)

/-- A history of calls, none of them forbidden. -/
def run (step : S → Req α → SOut S α) : St S α → List (Call α) → Option (St S α × List (Out (Option α)))
  | st, [] => some (st, [])
  | st, c :: cs =>
    match call step st c with
    | none => none
    | some (st, o) =>
      match run step st cs with
      | none => none
      | some (st, os) => some (st, o :: os)

/-- Nothing has happened yet. -/
def start (sv : S) : St S α := ⟨sv, 0, fun _ => none, 0, 0⟩

end Verif.Protocol.Spec
