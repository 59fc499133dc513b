import Verif.Storage.MultiModel

/-! # Model of restoring files (src/command/restore/file.c.inc 30-377)

The data directory is a function from names to contents and times. Checksums, the filters of the repository and the reconstruction of block
incremental files are parameters. What the multiple read delivers is the concatenation of the parts that were added to it, which is what is
proved of it in `Verif.Storage` (c60_data). Mode and owner are not modelled, links are followed before. -/

namespace Verif.Restore.File

open Verif

/-- `RestoreFile` (4-21) without mode and owner. The block size and the checksum size are only used by `Env.block`. -/
structure RFile where
  name : Str
  checksum : Str
  size : Nat
  time : Int
  zero : Bool
  offset : Nat
  limit : Option Nat
  mapSize : Nat
  deriving DecidableEq

/-- `RestoreResult` (src/command/restore/protocol.h 13-18). -/
inductive Result where
  | preserve
  | zero
  | copy
  deriving DecidableEq, Repr

/-- Names to content and time of modification. -/
abbrev Disk := Str → Option (Str × Int)

def Disk.set (d : Disk) (n : Str) (c : Str) (t : Int) : Disk := fun m => if m = n then some (c, t) else d m

/-- The parameters (32-34) and what is not modelled: `sha` is the checksum, `decode` the decryption and decompression of a file (337-344),
`block` what writing the blocks from a map over the existing bytes leaves (262-319), `now` is the time of a truncate. -/
structure Env where
  sha : Str → Str
  decode : Str → Res Str
  block : RFile → Str → Str → Res Str
  delta : Bool
  force : Bool
  begin : Int
  now : Int
  queueMax : Nat
  readOver : Nat
  repo : Option Str

/-- The file after it was truncated when it is larger than expected (99-127). -/
def truncated (env : Env) (f : RFile) (c : Str) (t : Int) : Str × Int :=
  if f.size < c.length then (c.take f.size, env.now) else (c, t)

/-- The checksum delta (89-190): data directory, result and whether block checksums are stored. -/
def checkSum (env : Env) (f : RFile) (d : Disk) (c : Str) (t : Int) : Disk × Result × Bool :=
  if f.size ≤ c.length ∨ (f.mapSize ≠ 0 ∧ c.length ≠ 0) then
    let i := truncated env f c t
    if f.size = 0 ∨ (i.1.length = f.size ∧ f.checksum = env.sha i.1) then
      (d.set f.name i.1 f.time, .preserve, false)
    else (d.set f.name i.1 i.2, .copy, decide (f.mapSize ≠ 0))
  else (d, .copy, false)

/-- What delta does with a file (71-193). -/
def check (env : Env) (d : Disk) (f : RFile) : Disk × Result × Bool :=
  if env.delta = true ∧ f.zero = false then
    match d f.name with
    | none => (d, .copy, false)
    | some (c, t) =>
      if env.force then
        if c.length = f.size ∧ t = f.time ∧ t < env.begin then (d, .preserve, false) else (d, .copy, false)
      else checkSum env f d c t
  else (d, .copy, false)

/-- Files of zeros and of no size are created (195-217). -/
def create (f : RFile) (p : Disk × Result × Bool) : Disk × Result × Bool :=
  if p.2.1 = .copy ∧ (f.size = 0 ∨ f.zero = true) then
    (p.1.set f.name (if f.zero then List.replicate f.size 0 else []) f.time, .zero, p.2.2)
  else p

/-- A file with what was found out about it. -/
structure Plan where
  file : RFile
  result : Result
  sums : Bool

/-- The first loop (59-230). -/
def checkAll (env : Env) : Disk → List RFile → Disk × List Plan
  | d, [] => (d, [])
  | d, f :: fs =>
    let p := create f (check env d f)
    let r := checkAll env p.1 fs
    (r.1, ⟨f, p.2.1, p.2.2⟩ :: r.2)

/-- The files to be copied (219-227). -/
def toCopy (ps : List Plan) : List RFile := (ps.filter fun p => p.result = .copy).map Plan.file

/-- What is added to the multiple read (222-226). All of it is from one file of the repository. -/
def adds (fs : List RFile) : List Storage.Add := fs.map fun f => ⟨[], f.offset, f.limit⟩

/-- All the bytes of the multiple read (233). -/
def stream (env : Env) (fs : List RFile) : Res Str :=
  match Storage.openAll (fun _ => env.repo) env.queueMax env.readOver (adds fs) with
  | .error e => .error e
  | .ok _ => .ok (fs.flatMap fun f => Storage.part (env.repo.getD []) f.offset f.limit)

/-- The checksum is compared (361-368). -/
def verified (env : Env) (f : RFile) (c : Str) : Res Str :=
  if f.checksum = env.sha c then .ok c else .error .checksum

/-- What a file becomes (253-368) and the bytes of the stream that remain. -/
def content (env : Env) (d : Disk) (s : Str) (p : Plan) : Res (Str × Str) :=
  if p.file.mapSize ≠ 0 then
    match p.file.limit with
    | none => .error .ub
    | some l =>
      match env.block p.file (s.take l) (if p.sums then ((d p.file.name).map Prod.fst).getD [] else []) with
      | .error e => .error e
      | .ok c =>
        match verified env p.file c with
        | .error e => .error e
        | .ok c => .ok (c, s.drop l)
  else
    match env.decode (Storage.part s 0 p.file.limit) with
    | .error e => .error e
    | .ok c =>
      match verified env p.file c with
      | .error e => .error e
      | .ok c => .ok (c, s.drop (p.file.limit.getD s.length))

/-- The second loop (235-372). -/
def copyAll (env : Env) : Disk → Str → List Plan → Res Disk
  | d, _, [] => .ok d
  | d, s, p :: ps =>
    if p.result = .copy then
      match content env d s p with
      | .error e => .error e
      | .ok (c, s') => copyAll env (d.set p.file.name c p.file.time) s' ps
    else copyAll env d s ps

/-- `restoreFile` (30-377): the data directory and the result of each file. -/
def restoreFile (env : Env) (d : Disk) (fs : List RFile) : Res (Disk × List Result) :=
  match stream env (toCopy (checkAll env d fs).2) with
  | .error e => .error e
  | .ok s =>
    match copyAll env (checkAll env d fs).1 s (checkAll env d fs).2 with
    | .error e => .error e
    | .ok d' => .ok (d', (checkAll env d fs).2.map Plan.result)

end Verif.Restore.File
