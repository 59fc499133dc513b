import Verif.Basic

/-!
# Protocol client and server

Model of the protocol that local and remote processes are driven with: sessions of src/protocol/client.c and the request loop of
src/protocol/server.c.

What is simplified. A message is a value: that a pack is read back as it was written is C69. Reading and writing the connection do
not fail by themselves. `ASSERT` is not compiled into production builds, so it is not a check: a call that an `ASSERT` forbids goes
on as the code does without it. Memory is modelled as far as it matters for sessions: a session and a stored response can be freed,
and using them afterwards is undefined. Times, logging and the keep-alive of other connections are not modelled.
-/

namespace Verif.Protocol

/-- `ProtocolCommandType` (protocol/client.h 49-55). -/
inductive CmdType where
  | opn | prc | cls | cnc
  deriving DecidableEq, Repr

/-- An error as it is sent to the client: code and message (server.c 126-153). The stack trace is not modelled. -/
structure SErr where
  code : Nat
  msg : String
  deriving DecidableEq, Repr

/-- `errorTypeFatal` (common/error/error.auto.c.inc: AssertError 25 and MemoryError 94 are fatal). -/
def SErr.fatal (e : SErr) : Bool := e.code == 25 || e.code == 94

/-- The message of a response: its type and its data (server.c 92-122, 126-153). An error carries the first error and the errors of
the retries after it (`errRetryType`, `errRetryMessage`; common/error/retry.c 51-139), here not yet rendered as text. -/
inductive Msg (α : Type) where
  | data (d : Option α)
  | err (first : SErr) (retries : List SErr)
  deriving DecidableEq, Repr

/-- A request (client.c 129-142, server.c 166-181). `open` is `sessionRequired` for the server. -/
structure Req (α : Type) where
  command : Nat
  type : CmdType
  sessionId : Nat
  isOpen : Bool
  param : Option α
  deriving DecidableEq, Repr

/-- A response (server.c 110-116, client.c 236-241). -/
structure Resp (α : Type) where
  sessionId : Nat
  close : Bool
  msg : Msg α
  deriving DecidableEq, Repr

/-- `PROTOCOL_COMMAND_EXIT` (protocol/client.h 71). -/
def cmdExit : Nat := 0xa27050

/-- `PROTOCOL_COMMAND_NOOP` (protocol/client.h 72). -/
def cmdNoop : Nat := 0x83dee0

/-- What becomes of one request on the server: a response for the session of the request, the end of the process because the
client asked for it, the end of the process with an error, or undefined behaviour. -/
inductive SOut (S α : Type) where
  | reply (s : S) (close : Bool) (msg : Msg α)
  | exit (s : S)
  | fatal (e : SErr)
  | ub

/-! ## Server -/

/-- `ProtocolServerHandler` (server.h 31-38). `W` is everything else in the process that a handler can change. A handler can throw,
and what it changed before stays changed; this includes the data of the session, which is passed by pointer (`none`: it is as it
was). Freeing the data of a session does not throw. A result holds the data of the response; of `open` also the data of the new
session, of `processSession` also whether to close the session. -/
structure Handler (α D W : Type) where
  command : Nat
  opn : Option (W → Option α → W × Except SErr (Option α × Option D))
  prc : Option (W → Option α → W × Except SErr (Option α))
  prcSession : Option (W → Option α → Option D → W × Option D × Except SErr (Option α × Bool))
  cls : Option (W → Option α → Option D → W × Option D × Except SErr (Option α))

/-- The server: `sessionList` (server.c 25, 40-44) and the rest of the process. -/
structure Server (D W : Type) where
  list : List (Nat × D)
  world : W

variable {α D W : Type}

/-- The search for the session (server.c 309-319): the index, which is the size of the list when there is none. -/
def findSession (list : List (Nat × D)) (id : Nat) : Nat :=
  match list with
  | [] => 0
  | x :: xs => if x.1 == id then 0 else findSession xs id + 1

/-- `lstRemoveIdx` (common/type/list.c 349-382). On an index that is not in the list the size of the list still goes down, which
leaves a list that is not the one that was meant: undefined here. -/
def removeIdx {β : Type} (list : List β) (idx : Nat) : Option (List β) :=
  if idx < list.length then some (list.eraseIdx idx) else none

/-- Store what a handler did to the data of the session at this index. -/
def setData (list : List (Nat × D)) (idx : Nat) (d : Option D) : List (Nat × D) :=
  match list[idx]?, d with
  | some x, some d => list.set idx (x.1, d)
  | _, _ => list

/-- Outcome of one pass of the retry loop: a response, an error, or undefined behaviour. -/
inductive Attempt (α D W : Type) where
  | reply (sv : Server D W) (close : Bool) (data : Option α)
  | fail (sv : Server D W) (e : SErr)
  | ub

/-- The `ProtocolError` when the session is not found (server.c 322-327). -/
def errNoSession : SErr := ⟨39, "unable to find session id"⟩

/-- Open a session (server.c 268-293). The session is added after the response is sent. A missing handler is a call through a null
pointer. -/
def attemptOpen (h : Handler α D W) (sv : Server D W) (q : Req α) : Attempt α D W :=
  match h.opn with
  | none => .ub
  | some f =>
    match f sv.world q.param with
    | (w, .error e) => .fail { sv with world := w } e
    | (w, .ok (data, none)) => .reply { sv with world := w } true data
    | (w, .ok (data, some d)) => .reply { list := sv.list ++ [(q.sessionId, d)], world := w } false data

/-- Process a request (server.c 334-380). `idx` and `data` are what the search found; they are 0 and none when the request needs no
session. A null result of a handler sends no data, like a result without data. -/
def attemptProcess (h : Handler α D W) (sv : Server D W) (q : Req α) (idx : Nat) (data : Option D) : Attempt α D W :=
  match h.prcSession with
  | some f =>
    match f sv.world q.param data with
    | (w, d, .error e) => .fail { list := setData sv.list idx (data.bind fun _ => d), world := w } e
    | (w, d, .ok (out, false)) => .reply { list := setData sv.list idx (data.bind fun _ => d), world := w } false out
    | (w, _, .ok (out, true)) =>
      match removeIdx sv.list idx with
      | some list => .reply { list := list, world := w } true out
      | none => .ub
  | none =>
    match h.prc with
    | none => .ub
    | some f =>
      match f sv.world q.param with
      | (w, .error e) => .fail { sv with world := w } e
      | (w, .ok out) => .reply { sv with world := w } false out

/-- Remove the session after the response to a close was sent (server.c 400-407). -/
def finishClose (sv : Server D W) (idx : Nat) (w : W) (out : Option α) : Attempt α D W :=
  match removeIdx sv.list idx with
  | some list => .reply { list := list, world := w } true out
  | none => .ub

/-- Close a session (server.c 383-410). -/
def attemptClose (h : Handler α D W) (sv : Server D W) (q : Req α) (idx : Nat) (data : Option D) : Attempt α D W :=
  match h.cls with
  | none => finishClose sv idx sv.world none
  | some f =>
    match f sv.world q.param data with
    | (w, d, .error e) => .fail { list := setData sv.list idx (data.bind fun _ => d), world := w } e
    | (w, _, .ok out) => finishClose sv idx w out

/-- Cancel a session (server.c 413-432). -/
def attemptCancel (sv : Server D W) (idx : Nat) (data : Option D) : Attempt α D W :=
  match data with
  | none => .reply sv true none
  | some _ => finishClose sv idx sv.world none

/-- Requests other than open, once the session was looked up (server.c 330-434). -/
def attemptFound (h : Handler α D W) (sv : Server D W) (q : Req α) (idx : Nat) (data : Option D) : Attempt α D W :=
  match q.type with
  | .prc => attemptProcess h sv q idx data
  | .cls => attemptClose h sv q idx data
  | _ => attemptCancel sv idx data

/-- Look up the session for requests other than open and go on with it (server.c 296-434). -/
def attemptSession (h : Handler α D W) (sv : Server D W) (q : Req α) : Attempt α D W :=
  if q.isOpen then
    match sv.list[findSession sv.list q.sessionId]? with
    | some x => attemptFound h sv q (findSession sv.list q.sessionId) (some x.2)
    | none =>
      if q.type = .cnc then attemptFound h sv q (findSession sv.list q.sessionId) none
      else .fail sv errNoSession
  else attemptFound h sv q 0 none

/-- One pass of the retry loop (server.c 262-436). -/
def attempt (h : Handler α D W) (sv : Server D W) (q : Req α) : Attempt α D W :=
  match q.type with
  | .opn => attemptOpen h sv q
  | _ => attemptSession h sv q

/-- The errors so far, with one more (`errRetryAdd`, common/error/retry.c 90-139; `errStackTrace`, server.c 444-445). -/
def errAdd : Option (SErr × List SErr) → SErr → SErr × List SErr
  | none, e => (e, [])
  | some (first, rest), e => (first, rest ++ [e])

/-- The handler retry loop (server.c 255-480). A fatal error is not caught by `CATCH_ANY` and ends the process
(server.c 484-497). -/
def retryLoop (h : Handler α D W) (q : Req α) : Nat → Server D W → Option (SErr × List SErr) → SOut (Server D W) α
  | remaining, sv, errs =>
    match attempt h sv q with
    | .ub => .ub
    | .reply sv close data => .reply sv close (.data data)
    | .fail sv e =>
      if e.fatal then .fatal e
      else
        match remaining with
        | 0 => .reply sv false (.err (errAdd errs e).1 (errAdd errs e).2)
        | remaining + 1 => retryLoop h q remaining sv (some (errAdd errs e))

/-- The error for a command that is not known (server.c 458-460). -/
def errInvalid : SErr := ⟨39, "invalid request"⟩

/-- One pass of the loop of `protocolServerProcess` (server.c 211-498): find the handler, run it with `retries` retries, or take a
built-in command. -/
def serve (handlers : List (Handler α D W)) (retries : Nat) (sv : Server D W) (q : Req α) : SOut (Server D W) α :=
  match handlers.find? (fun h => q.command == h.command) with
  | some h => retryLoop h q retries sv none
  | none =>
    if q.command = cmdExit then .exit sv
    else if q.command = cmdNoop then .reply sv false (.data none)
    else .fatal errInvalid

/-! ## Client -/

/-- `packRead` and `type` of a session (client.c 61-62): nothing yet, a message, or a message whose memory was freed. -/
inductive Slot (α : Type) where
  | null
  | live (m : Msg α)
  | freed
  deriving DecidableEq, Repr

/-- `ProtocolClientSession` (client.c 50-63). `callback` says whether the memory context of the session has its callback set
(client.c 535, 560). -/
structure Sess (α : Type) where
  command : Nat
  async : Bool
  isOpen : Bool
  queued : Bool
  stored : Bool
  close : Bool
  slot : Slot α
  callback : Bool
  deriving DecidableEq, Repr

/-- `ProtocolClientState` (client.c 23-33). -/
inductive CState where
  | idle | request | response
  deriving DecidableEq, Repr

/-- The client (client.c 38-48) with its connection: requests that the server has not read, responses that the client has not read,
and the server, if it still runs. A session is known by its id, which is unique; `heap` says which ones have not been freed. -/
structure Net (S α : Type) where
  state : CState
  total : Nat
  list : List Nat
  heap : Nat → Option (Sess α)
  toServer : List (Req α)
  toClient : List (Resp α)
  server : Option S

variable {S : Type}

/-- The result of a call: it returns, it throws the error that the server reported, it throws an error of its own, it waits for ever,
or it has undefined behaviour. -/
inductive Out (β : Type) where
  | ok (v : β)
  | raised (first : SErr) (retries : List SErr)
  | err (e : Err)
  | hang
  | ub
  deriving DecidableEq, Repr

/-- Replace the value of a function at one point. -/
def upd {β : Type} (f : Nat → β) (k : Nat) (v : β) : Nat → β := fun n => if n = k then v else f n

/-- Write one session. -/
def Net.set (net : Net S α) (id : Nat) (s : Sess α) : Net S α := { net with heap := upd net.heap id (some s) }

/-- `protocolClientSessionFindIdx` (client.c 87-106). Every session before the one sought is looked at, so a session in the list that
was freed is used. -/
def findIdx (heap : Nat → Option (Sess α)) : List Nat → Nat → Out Nat
  | [], _ => .err .protocol
  | x :: xs, id =>
    match heap x with
    | none => .ub
    | some _ =>
      if x == id then .ok 0
      else
        match findIdx heap xs id with
        | .ok n => .ok (n + 1)
        | o => o

/-- `protocolClientRequestInternal` (client.c 109-160). -/
def requestInternal (net : Net S α) (id : Nat) (type : CmdType) (param : Option α) : Net S α × Out Unit :=
  match net.heap id with
  | none => (net, .ub)
  | some s =>
    if net.state ≠ .idle then (net, .err .protocol)
    else
      ({ net with
          toServer := net.toServer ++ [⟨s.command, type, id, s.isOpen, param⟩]
          heap := upd net.heap id (some { s with queued := true }) }, .ok ())

/-- The next response on the connection (client.c 236-241). When there is none the client waits for the server, which takes the next
request. When there is no request either, the client waits for ever. After a fatal error the server sends it with session id 0 and
ends (server.c 484-497). -/
def pump (step : S → Req α → SOut S α) (net : Net S α) : Out (Resp α × Net S α) :=
  match net.toClient with
  | r :: rest => .ok (r, { net with toClient := rest })
  | [] =>
    match net.server, net.toServer with
    | some sv, q :: qs =>
      match step sv q with
      | .reply sv' close msg => .ok (⟨q.sessionId, close, msg⟩, { net with server := some sv', toServer := qs })
      | .fatal e => .ok (⟨0, false, .err e []⟩, { net with server := none, toServer := qs })
      | .exit _ => .hang
      | .ub => .ub
    | none, _ => .err .fileRead
    | some _, [] => .hang

/-- Store a response with the session it is for (client.c 249-260). -/
def storeOther (net : Net S α) (r : Resp α) : Out (Net S α) :=
  match findIdx net.heap net.list r.sessionId with
  | .ub => .ub
  | .err e => .err e
  | .hang => .hang
  | .raised a b => .raised a b
  | .ok n =>
    match net.list[n]? with
    | none => .ub
    | some other =>
      match net.heap other with
      | none => .ub
      | some s =>
        if s.stored then .err .protocol
        else .ok (net.set other { s with stored := true, close := r.close, slot := .live r.msg })

/-- The loop that reads until the response for this session is found (client.c 230-267). The number bounds the passes: each takes a
message from the connection. The state of the client stays at response when an error is thrown. -/
def readLoop (step : S → Req α → SOut S α) : Nat → Net S α → Nat → Net S α × Out (Bool × Msg α)
  | 0, net, _ => ({ net with state := .response }, .hang)
  | fuel + 1, net, id =>
    match pump step net with
    | .ok (r, net) =>
      if r.sessionId ≠ 0 ∧ r.sessionId ≠ id then
        match storeOther net r with
        | .ok net => readLoop step fuel net id
        | .err e => ({ net with state := .response }, .err e)
        | .raised a b => ({ net with state := .response }, .raised a b)
        | .hang => ({ net with state := .response }, .hang)
        | .ub => (net, .ub)
      else (net, .ok (r.close, r.msg))
    | .err e => ({ net with state := .response }, .err e)
    | .raised a b => ({ net with state := .response }, .raised a b)
    | .hang => ({ net with state := .response }, .hang)
    | .ub => (net, .ub)

/-- The end of `protocolClientResponseInternal` (client.c 269-283): the response is no longer queued, the session is closed if the
server said so, and an error is thrown. -/
def finishResponse (net : Net S α) (id : Nat) (close : Bool) (msg : Msg α) : Net S α × Out (Option α) :=
  match net.heap id with
  | none => (net, .ub)
  | some s =>
    (net.set id { s with queued := false, isOpen := s.isOpen && !close },
      match msg with
      | .data d => .ok d
      | .err a b => .raised a b)

/-- The number of messages on the connection. -/
def Net.count (net : Net S α) : Nat := net.toClient.length + net.toServer.length

/-- `protocolClientResponseInternal` (client.c 198-286). Moving a stored response that was freed is undefined. -/
def responseInternal (step : S → Req α → SOut S α) (net : Net S α) (id : Nat) : Net S α × Out (Option α) :=
  match net.heap id with
  | none => (net, .ub)
  | some s =>
    if net.state ≠ .idle then (net, .err .protocol)
    else if s.stored then
      match s.slot with
      | .live m => finishResponse (net.set id { s with stored := false }) id s.close m
      | .null => finishResponse (net.set id { s with stored := false }) id s.close (.data none)
      | .freed => (net, .ub)
    else
      match readLoop step net.count net id with
      | (net, .ok (close, msg)) => finishResponse net id close msg
      | (net, .err e) => (net, .err e)
      | (net, .raised a b) => (net, .raised a b)
      | (net, .hang) => (net, .hang)
      | (net, .ub) => (net, .ub)

/-- Go on with the next statement if the last one returned. -/
def andThen {β γ : Type} (r : Net S α × Out β) (k : Net S α → β → Net S α × Out γ) : Net S α × Out γ :=
  match r with
  | (net, .ok v) => k net v
  | (net, .raised a b) => (net, .raised a b)
  | (net, .err e) => (net, .err e)
  | (net, .hang) => (net, .hang)
  | (net, .ub) => (net, .ub)

/-- The memory of a stored response after `pckReadFree` (client.c 484); freeing NULL does nothing. -/
def freeSlot : Slot α → Slot α
  | .live (.data none) => .null
  | .live _ => .freed
  | o => o

/-- Read the response that is queued (client.c 477-490). A stored one is freed, and stays marked as stored and queued. -/
def freeQueued (step : S → Req α → SOut S α) (net : Net S α) (id : Nat) : Net S α × Out Unit :=
  match net.heap id with
  | none => (net, .ub)
  | some s =>
    if s.queued then
      if s.stored then (net.set id { s with slot := freeSlot s.slot }, .ok ())
      else andThen (responseInternal step net id) fun net _ => (net, .ok ())
    else (net, .ok ())

/-- Cancel the session if it is open (client.c 492-498). -/
def freeCancel (step : S → Req α → SOut S α) (net : Net S α) (id : Nat) : Net S α × Out Unit :=
  match net.heap id with
  | none => (net, .ub)
  | some s =>
    if s.isOpen then
      andThen (requestInternal net id .cnc none) fun net _ =>
        andThen (responseInternal step net id) fun net _ => (net, .ok ())
    else (net, .ok ())

/-- Remove the session from the list (client.c 500-501). -/
def freeRemove (net : Net S α) (id : Nat) : Net S α × Out Unit :=
  match findIdx net.heap net.list id with
  | .ok n => ({ net with list := net.list.eraseIdx n }, .ok ())
  | .err e => (net, .err e)
  | .raised a b => (net, .raised a b)
  | .hang => (net, .hang)
  | .ub => (net, .ub)

/-- `protocolClientSessionFreeResource` (client.c 467-503). -/
def freeResource (step : S → Req α → SOut S α) (net : Net S α) (id : Nat) : Net S α × Out Unit :=
  andThen (freeQueued step net id) fun net _ =>
    andThen (freeCancel step net id) fun net _ => freeRemove net id

/-- `memContextCallbackClear` on a session (common/memContext.c 888-903). -/
def callbackClear (net : Net S α) (id : Nat) : Net S α × Out Unit :=
  match net.heap id with
  | none => (net, .ub)
  | some s => (net.set id { s with callback := false }, .ok ())

/-- `protocolClientSessionNew` (client.c 507-539). -/
def sessionNew (net : Net S α) (command : Nat) (async : Bool) : Net S α × Out Nat :=
  ({ net with
      total := net.total + 1
      list := if async then net.list ++ [net.total + 1] else net.list
      heap := upd net.heap (net.total + 1) (some ⟨command, async, false, false, false, false, .null, async⟩) },
    .ok (net.total + 1))

/-- `protocolClientRequest` (client.c 403-430). The session is in the temporary memory context, which is freed at the end, also on
error. It has no callback because it is neither async nor opened. -/
def clientRequest (step : S → Req α → SOut S α) (net : Net S α) (command : Nat) (param : Option α) : Net S α × Out (Option α) :=
  match
    andThen (sessionNew net command false) fun net id =>
      andThen (requestInternal net id .prc param) fun net _ => responseInternal step net id
  with
  | (net', o) => ({ net' with heap := upd net'.heap (net.total + 1) none }, o)

/-- Mark the session as open and track it if that was not already done (client.c 555-561). -/
def sessionOpened (net : Net S α) (id : Nat) : Net S α × Out Unit :=
  match net.heap id with
  | none => (net, .ub)
  | some s =>
    ({ net with
        heap := upd net.heap id (some { s with isOpen := true, callback := s.callback || !s.async })
        list := if s.async then net.list else net.list ++ [id] }, .ok ())

/-- `protocolClientSessionOpen` (client.c 543-564). -/
def sessionOpen (step : S → Req α → SOut S α) (net : Net S α) (id : Nat) (param : Option α) : Net S α × Out (Option α) :=
  andThen (requestInternal net id .opn param) fun net _ =>
    andThen (sessionOpened net id) fun net _ => responseInternal step net id

/-- `protocolClientSessionRequest` (client.c 568-580). -/
def sessionRequest (step : S → Req α → SOut S α) (net : Net S α) (id : Nat) (param : Option α) : Net S α × Out (Option α) :=
  andThen (requestInternal net id .prc param) fun net _ => responseInternal step net id

/-- `protocolClientSessionRequestAsync` (client.c 584-597). -/
def sessionRequestAsync (net : Net S α) (id : Nat) (param : Option α) : Net S α × Out (Option α) :=
  andThen (requestInternal net id .prc param) fun net _ => (net, .ok none)

/-- `protocolClientSessionCancel` (client.c 636-648). -/
def sessionCancel (step : S → Req α → SOut S α) (net : Net S α) (id : Nat) : Net S α × Out (Option α) :=
  andThen (callbackClear net id) fun net _ =>
    andThen (freeResource step net id) fun net _ => (net, .ok none)

/-- `protocolClientSessionClose` (client.c 615-632). -/
def sessionClose (step : S → Req α → SOut S α) (net : Net S α) (id : Nat) : Net S α × Out (Option α) :=
  andThen (requestInternal net id .cls none) fun net _ =>
    andThen (responseInternal step net id) fun net d =>
      andThen (callbackClear net id) fun net _ =>
        andThen (freeResource step net id) fun net _ => (net, .ok d)

/-- `protocolClientSessionFree` (client.h 232-237, common/memContext.c `memContextFree`): run the callback if it is set, and free the
memory even if the callback throws. -/
def sessionFree (step : S → Req α → SOut S α) (net : Net S α) (id : Nat) : Net S α × Out (Option α) :=
  match net.heap id with
  | none => (net, .ub)
  | some s =>
    match
      (if s.callback then andThen (freeResource step net id) fun net _ => (net, .ok none)
        else (net, .ok none))
    with
    | (net', o) => ({ net' with heap := upd net'.heap id none }, o)

/-- The loop over the sessions in `protocolClientFreeResource` (client.c 301-303). -/
def clearAll : Net S α → List Nat → Net S α × Out Unit
  | net, [] => (net, .ok ())
  | net, x :: xs => andThen (callbackClear net x) fun net _ => clearAll net xs

/-- `protocolClientFreeResource` (client.c 291-318): the exit request goes out whatever the state. -/
def clientFree (net : Net S α) : Net S α × Out (Option α) :=
  andThen (clearAll net net.list) fun net _ =>
    andThen (sessionNew { net with state := .idle } cmdExit false) fun net id =>
      andThen (requestInternal net id .prc none) fun net _ => (net, .ok none)

/-- The calls of the interface (client.h 95-237). Keep-alive does nothing or sends a noop (client.c 449-462). -/
inductive Call (α : Type) where
  | new (command : Nat) (async : Bool)
  | request (command : Nat) (param : Option α)
  | noop
  | keepAlive (due : Bool)
  | open (id : Nat) (param : Option α)
  | sessRequest (id : Nat) (param : Option α)
  | requestAsync (id : Nat) (param : Option α)
  | response (id : Nat)
  | close (id : Nat)
  | cancel (id : Nat)
  | free (id : Nat)
  deriving DecidableEq, Repr

/-- One call. A new session is known by the number of sessions before it plus one. -/
def call (step : S → Req α → SOut S α) (net : Net S α) : Call α → Net S α × Out (Option α)
  | .new command async => andThen (sessionNew net command async) fun net _ => (net, .ok none)
  | .request command param => clientRequest step net command param
  | .noop => clientRequest step net cmdNoop none
  | .keepAlive true => clientRequest step net cmdNoop none
  | .keepAlive false => (net, .ok none)
  | .open id param => sessionOpen step net id param
  | .sessRequest id param => sessionRequest step net id param
  | .requestAsync id param => sessionRequestAsync net id param
  | .response id => responseInternal step net id
  | .close id => sessionClose step net id
  | .cancel id => sessionCancel step net id
  | .free id => sessionFree step net id

/-- A history of calls: each is made whatever the ones before it returned or threw. -/
def run (step : S → Req α → SOut S α) : Net S α → List (Call α) → Net S α × List (Out (Option α))
  | net, [] => (net, [])
  | net, c :: cs =>
    ((run step (call step net c).1 cs).1, (call step net c).2 :: (run step (call step net c).1 cs).2)

/-- A new client (client.c 322-399); the greeting is not modelled. -/
def clientNew (sv : S) : Net S α := ⟨.idle, 0, [], fun _ => none, [], [], some sv⟩

end Verif.Protocol
