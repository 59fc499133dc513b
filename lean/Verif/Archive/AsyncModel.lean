import Verif.Archive.StatusModel
import Verif.Archive.PushModel

/-! # Model of asynchronous archive push as a whole

PostgreSQL, the foreground process, the asynchronous process with its jobs, and what fails, in any order of events:
src/command/archive/push/push.c (`cmdArchivePush`, lines 322-397, and `cmdArchivePushAsync`, lines 509-680). The content of a WAL file
is a function of its name: PostgreSQL does not change a file that it marked ready. -/

namespace Verif.Archive

structure Sys where
  /-- Files for which PostgreSQL made a ready file and was not told that they are archived. -/
  ready : List Str
  spool : Spool
  repos : List Repo
  /-- Files that the asynchronous process is to push (none when it does not run: there is one by the lock). -/
  queue : List Str
  /-- Files for which a job succeeded in this run. -/
  done : List Str
  /-- Files that PostgreSQL was told are archived. -/
  acked : List Str
  /-- Files dropped because the queue is too large (archive-push-queue-max). -/
  dropped : List Str
  /-- Files for which an administrator made an ok file. -/
  skipped : List Str

inductive Event where
  /-- PostgreSQL marks a file as ready. -/
  | ready (x : Str)
  /-- The asynchronous process starts and makes the list, lines 536-540. -/
  | start
  /-- A job pushes a file, with what fails. The source is the file, or an error. -/
  | push (x : Str) (o : PushOpts) (header : Res (Nat × Nat)) (readable : Bool) (chunks : Res (List Bytes)) (envs : List Env)
  /-- The ok file of a job that succeeded, lines 616-631. -/
  | ok (x : Str) (warning : Option Str)
  /-- An error file for a file or for all, lines 633-645 and at the end. -/
  | error (x : Option Str) (code : Int) (message : Str)
  /-- A file is dropped, lines 575-586. -/
  | drop (x : Str) (warning : Str)
  /-- The asynchronous process ends or is killed. -/
  | stop
  /-- The foreground process for a file starts the asynchronous process. -/
  | clear (x : Str)
  /-- The foreground process looks at the status of a file. When it succeeds PostgreSQL removes the ready file. -/
  | check (x : Str) (throwOnError : Bool)
  /-- An administrator makes an ok file. -/
  | skip (x : Str) (content : Bytes)

def Sys.step (sha : Bytes → Str) (content : Str → Bytes) (s : Sys) : Event → Sys
  | .ready x => { s with ready := x :: s.ready }
  | .start =>
    if s.queue = [] then
      let p := processList (s.ready.map (· ++ readyExt)) (s.spool.map Prod.fst)
      { s with
        queue := p.1
        done := []
        spool := s.spool.filter fun f => p.2.contains f.1 }
    else s
  | .push x o header readable chunks envs =>
    if x ∈ s.queue ∧ envs.length = s.repos.length then
      let src : Source := ⟨header, if readable then .ok (content x) else .error .fileOpen, chunks⟩
      let r := pushFile sha o src x (s.repos.zip envs) []
      { s with
        repos := r.1
        done := match r.2 with | .ok _ => x :: s.done | .error _ => s.done }
    else s
  | .ok x warning => if x ∈ s.done then { s with spool := okWrite s.spool x warning } else s
  | .error x code message => { s with spool := errorWrite s.spool x code message }
  | .drop x warning =>
    if x ∈ s.queue then { s with spool := okWrite s.spool x (some warning), dropped := x :: s.dropped } else s
  | .stop => { s with queue := [], done := [] }
  | .clear x => { s with spool := errorClear s.spool x }
  | .check x throwOnError =>
    match asyncStatus s.spool x throwOnError true with
    | .ok _ => { s with acked := x :: s.acked, ready := s.ready.filter (· != x) }
    | _ => s
  | .skip x content => { s with spool := putFile (x ++ okExt) content s.spool, skipped := x :: s.skipped }

def Sys.run (sha : Bytes → Str) (content : Str → Bytes) : Sys → List Event → Sys
  | s, [] => s
  | s, e :: es => Sys.run sha content (s.step sha content e) es

end Verif.Archive
