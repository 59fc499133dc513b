import Verif.Basic

/-!
# Parallel executor

Model of `protocolParallelProcess`, `protocolParallelResult` and `protocolParallelDone` (src/protocol/parallel.c 92-286).

A job is identified by the order in which the callback handed it out (its pointer in the C program). The callback is any state
machine. Which clients have data to read when `select` returns is any predicate. What a client answers is not modelled: an answer
and an error both make the job done (parallel.c 169-180). Errors of `select` and of sending a command are not modelled.
-/

namespace Verif.Parallel

/-- A job in `jobList`. `client` is the index of the client it was sent to (parallel.c 218). -/
structure Rec (α : Type) where
  id : Nat
  job : α
  client : Nat
  done : Bool
  deriving DecidableEq, Repr

/-- A client: `clientJobList[i].job` and whether the client was freed (parallel.c 131, 198, 228-229). -/
inductive Slot where
  | running (id : Nat)
  | idle
  | freed
  deriving DecidableEq, Repr

/-- The executor. `calls` and `delivered` are history: the calls of the callback with their answers and the jobs that
`protocolParallelResult` returned. `total` is `lstSize(clientList)`. -/
structure St (σ α : Type) where
  total : Nat
  cb : σ
  slots : Nat → Slot
  jobs : List (Rec α)
  nextId : Nat
  calls : List (Nat × Option α)
  delivered : List (Rec α)

/-- Replace the value of a function at one point. -/
def upd {α : Type} (f : Nat → α) (k : Nat) (v : α) : Nat → α := fun n => if n = k then v else f n

/-- `protocolParallelJobStateSet(job, protocolParallelJobStateDone)` (parallel.c 180). -/
def markDone {α : Type} (id : Nat) (jobs : List (Rec α)) : List (Rec α) :=
  jobs.map fun r => if r.id = id then { r with done := true } else r

/-- One pass of the loop over clients that have data (parallel.c 158-186). -/
def finishStep {σ α : Type} (ready : Nat → Bool) (st : St σ α) (i : Nat) : St σ α :=
  match st.slots i with
  | .running id =>
    if ready i then
      { st with
        jobs := markDone id st.jobs
        slots := upd st.slots i .idle }
    else st
  | _ => st

/-- One pass of the loop that finds new jobs (parallel.c 193-234). -/
def assignStep {σ α : Type} (next : σ → Nat → Option α × σ) (st : St σ α) (i : Nat) : St σ α :=
  match st.slots i with
  | .idle =>
    match next st.cb i with
    | (some job, cb) =>
      { st with
        cb := cb
        jobs := st.jobs ++ [{ id := st.nextId, job := job, client := i, done := false }]
        nextId := st.nextId + 1
        slots := upd st.slots i (.running st.nextId)
        calls := st.calls ++ [(i, some job)] }
    | (none, cb) =>
      { st with
        cb := cb
        slots := upd st.slots i .freed
        calls := st.calls ++ [(i, none)] }
  | _ => st

/-- A client is running a job and has data. -/
def hasData {σ α : Type} (ready : Nat → Bool) (st : St σ α) (i : Nat) : Bool :=
  match st.slots i with
  | .running _ => ready i
  | _ => false

/-- `protocolParallelProcess` (parallel.c 92-239). Returns `completed`, the number `select` returns; a timeout is when no client is
ready. -/
def process {σ α : Type} (next : σ → Nat → Option α × σ) (ready : Nat → Bool) (st : St σ α) : St σ α × Nat :=
  let completed := ((List.range st.total).filter (hasData ready st)).length
  let st1 := (List.range st.total).foldl (finishStep ready) st
  ((List.range st1.total).foldl (assignStep next) st1, completed)

/-- The first job that is done, and the jobs without it (parallel.c 255-265). -/
def takeDone {α : Type} : List (Rec α) → Option (Rec α × List (Rec α))
  | [] => none
  | r :: rest =>
    if r.done then some (r, rest)
    else
      match takeDone rest with
      | some (x, rest') => some (x, r :: rest')
      | none => none

/-- `protocolParallelResult` (parallel.c 242-268). -/
def result {σ α : Type} (st : St σ α) : Option (Rec α) × St σ α :=
  match takeDone st.jobs with
  | some (r, rest) =>
    (some r, { st with
      jobs := rest
      delivered := st.delivered ++ [r] })
  | none => (none, st)

/-- `protocolParallelDone` (parallel.c 271-286). -/
def done {σ α : Type} (st : St σ α) : Bool := st.jobs.isEmpty

/-- A new executor with its clients (parallel.c 41-89, 107-119). -/
def start {σ α : Type} (total : Nat) (cb : σ) : St σ α :=
  { total := total
    cb := cb
    slots := fun _ => .idle
    jobs := []
    nextId := 0
    calls := []
    delivered := [] }

/-- A call of the executor by its user. -/
inductive Op where
  | process (ready : Nat → Bool)
  | result

/-- Any sequence of calls. -/
def run {σ α : Type} (next : σ → Nat → Option α × σ) : St σ α → List Op → St σ α
  | st, [] => st
  | st, .process ready :: rest => run next (process next ready st).1 rest
  | st, .result :: rest => run next (result st).2 rest

end Verif.Parallel
