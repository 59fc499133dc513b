import Verif.Archive.StatusModel
import Verif.Wal.Model

/-! # Model of the queue of asynchronous archive get

src/command/archive/get/get.c: what is kept in the queue and what is asked for, and the loop of the foreground process. -/

namespace Verif.Archive

/-- `queueNeed`, lines 535-605: what to get, and the files left in the queue. Sorted lists are searched for an element. -/
def queueNeed (seg : Str) (found : Bool) (queueSize segSize : Nat) (files : List Str) : Res (List Str × List Str) :=
  if segSize = 0 then .error .ub
  else
    match (if found then Wal.next seg segSize else .ok seg) with
    | .error e => .error e
    | .ok first =>
      match Wal.range first segSize (max 2 (queueSize / segSize % 2 ^ 32)) with
      | .error e => .error e
      | .ok ideal =>
        let keep := files.filter ideal.contains
        let left := files.filter fun f => ideal.contains f || endsWith f okExt && files.contains (dropExt okExt f)
        .ok ((sortAsc ideal).filter (fun f => !keep.contains f), left)

/-- A pass of the loop of the foreground process: what other processes did before it, if the archive lock is free, and if the
asynchronous process of the same foreground process holds the lock (`cmdLockOwn`). -/
structure GetPass where
  change : Spool → Spool
  lock : Bool
  own : Bool

/-- Result of `cmdArchiveGet` in asynchronous mode. -/
inductive Got where
  /-- The segment was moved from the queue, line 768. The queue is then filled for later segments, which is not modelled here. -/
  | spool (data : Bytes)
  /-- The segment is got from the archive by the process itself, line 839. -/
  | sync
  /-- PostgreSQL is told that the segment is missing. -/
  | missing
  | thrown (code : Int) (message : Str)
  | fail (e : Err)
deriving DecidableEq

/-- The files that are left in the spool after `queueNeed` and `archiveAsyncErrorClear`, lines 811-818. -/
def spawn (seg : Str) (queueSize segSize : Nat) (spool : Spool) : Res Spool :=
  match queueNeed seg false queueSize segSize (spool.map Prod.fst) with
  | .error e => .error e
  | .ok (_, left) => .ok (errorClear (spool.filter fun f => left.contains f.1) seg)

/-- Spawn the asynchronous process when it was not yet and the lock is free, lines 791-829. -/
def getSpawn (seg : Str) (queueSize segSize : Nat) (spool : Spool) (forked lock : Bool) : Res (Spool × Bool) :=
  if !forked && lock then (spawn seg queueSize segSize spool).map (·, true) else .ok (spool, forked)

/-- What a pass of the loop does, lines 720-851: it ends or goes on with the spool and if the asynchronous process was spawned. -/
def getPass (seg : Str) (queueSize segSize : Nat) (retry : Bool) (spool : Spool) (first forked : Bool) (p : GetPass) :
    Got ⊕ (Spool × Bool) :=
  let found := spool.get seg
  let missingRetry := first && retry
  match asyncStatus spool seg (!first) (found.isSome || !missingRetry) with
  | .thrown code message => .inl (.thrown code message)
  | .fail e => .inl (.fail e)
  | status =>
    -- The ok file is removed when there is one, lines 731-735
    let ok := status != .wait
    let spool := if ok then spool.remove (seg ++ okExt) else spool
    match found with
    | some data => .inl (.spool data)
    | none =>
      if ok && !missingRetry then .inl .missing
      else
        match getSpawn seg queueSize segSize spool forked p.lock with
        | .error e => .inl (.fail e)
        | .ok s => if !first && !p.own then .inl .sync else .inr s

/-- The loop, lines 718-853. -/
def getWait (seg : Str) (queueSize segSize : Nat) (retry : Bool) : Spool → (first forked : Bool) → List GetPass → Got
  | _, _, _, [] => .fail .archiveTimeout
  | spool, first, forked, p :: passes =>
    match getPass seg queueSize segSize retry (p.change spool) first forked p with
    | .inl r => r
    | .inr s => getWait seg queueSize segSize retry s.1 false s.2 passes

/-- `cmdArchiveGet` in asynchronous mode. -/
def getAsync (seg : Str) (queueSize segSize : Nat) (retry : Bool) (spool : Spool) (passes : List GetPass) : Got :=
  getWait seg queueSize segSize retry spool true false passes

end Verif.Archive
