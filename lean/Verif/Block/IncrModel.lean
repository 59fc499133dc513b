import Verif.Block.MapModel

/-! # Model of block incremental backup and restore

src/command/backup/blockIncr.c, src/command/restore/blockDelta.c and the parts of src/command/restore/file.c.inc for block
incremental files. The block hash (xxHash), the hash of the whole file (SHA-1), compression and encryption are parameters.
The repository is a function from backup reference and bundle to the bytes of the repository file. -/

namespace Verif.Block

/-- Filters for what is stored in the repository. What compression and encryption return may depend on where the data is
stored (there is a random salt for each). -/
structure Codec where
  /-- Compress and encrypt filters of a super block, lines 145-155 of src/command/backup/blockIncr.c. -/
  pack : (reference offset : Nat) → List UInt8 → List UInt8
  /-- Decrypt and decompress filters of a super block, lines 237-244 of src/command/restore/blockDelta.c. -/
  unpack : List UInt8 → Option (List UInt8)
  /-- Encrypt filter of the map, lines 248-249 of src/command/backup/blockIncr.c. -/
  packMap : (reference : Nat) → List UInt8 → List UInt8
  /-- Decrypt filter of the map, lines 103-107 of src/command/backup/file.c.inc and 264-268 of
  src/command/restore/file.c.inc. -/
  unpackMap : List UInt8 → Option (List UInt8)

/-- What is the same in all backups of a file. -/
structure Format where
  codec : Codec
  blockSize : Nat
  checksumSize : Nat
  /-- `xxHashOne` with the checksum size. -/
  hash : List UInt8 → List UInt8

/-- Parameters of `blockIncrNew`, src/command/backup/blockIncr.c:361-390. -/
structure Param where
  superBlockSize : Nat
  reference : Nat
  bundleId : Nat
  bundleOffset : Nat

/-- Blocks from the start of data. -/
def blocks (blockSize : Nat) : (total : Nat) → List UInt8 → List (List UInt8)
  | 0, _ => []
  | total + 1, data => data.take blockSize :: blocks blockSize total (data.drop blockSize)

/-! ## Backup -/

/-- The state of the filter, src/command/backup/blockIncr.c:24-55. `raw` is what was written to `blockOutWrite` (so
`blockOutSize` is its length) and `out` what the filter has output. -/
structure State where
  blockNo : Nat
  superBlockNo : Nat
  blockOffset : Nat
  opened : Bool
  raw : List UInt8
  pending : List Nat
  map : List Item
  mapWrite : Bool
  out : List UInt8

/-- `superBlockSize` rounded up to a multiple of the block size, line 382. -/
def superSize (f : Format) (p : Param) : Nat := blockTotal p.superBlockSize f.blockSize * f.blockSize

/-- The state that `blockIncrNew` makes, lines 380-391. -/
def State.new (p : Param) : State := ⟨0, 0, p.bundleOffset, false, [], [], [], false, []⟩

/-- Process a block, lines 124-193. -/
def addBlock (f : Format) (p : Param) (prior : Option (List Item)) (st : State) (block : List UInt8) : State :=
  let checksum := f.hash block
  let added : State :=
    { st with
      opened := true
      raw := st.raw ++ block
      map := st.map ++ [⟨p.reference, superSize f p, p.bundleId, st.blockOffset, 0, st.superBlockNo, checksum⟩]
      pending := st.pending ++ [st.map.length]
      superBlockNo := st.superBlockNo + 1
      blockNo := st.blockNo + 1 }
  match prior.bind (fun map => map[st.blockNo]?) with
  | none => added
  | some item =>
    if item.checksum ≠ checksum then added
    else { st with map := st.map ++ [item], blockNo := st.blockNo + 1 }

/-- Set size and super block size for items already added, lines 208-215. -/
def patch (pending : List Nat) (size superBlockSize : Nat) (map : List Item) : List Item :=
  map.mapIdx fun i x => if i ∈ pending then { x with size := size, superBlockSize := superBlockSize } else x

/-- Write the super block, lines 199-233. -/
def flush (f : Format) (p : Param) (done : Bool) (st : State) : State :=
  if st.opened && (done || decide (st.raw.length ≥ superSize f p)) then
    let stored := f.codec.pack p.reference st.blockOffset st.raw
    { st with
      map := patch st.pending stored.length st.raw.length st.map
      pending := []
      opened := false
      blockOffset := st.blockOffset + stored.length
      raw := []
      superBlockNo := 0
      mapWrite := true
      out := st.out ++ stored }
  else st

/-- What the filter returns: output, and how much of its end is the map. -/
structure IncrResult where
  out : List UInt8
  mapSize : Nat
  map : List Item

/-- The map is written when there are new blocks or the file has less blocks, lines 236-260. -/
def finish (f : Format) (p : Param) (prior : Option (List Item)) (st : State) : IncrResult :=
  if st.mapWrite || prior.any (fun map => decide (st.map.length < map.length)) then
    let bytes := f.codec.packMap p.reference (mapWrite f.blockSize st.map)
    ⟨st.out ++ bytes, bytes.length, st.map⟩
  else ⟨st.out, 0, st.map⟩

/-- The whole filter, `blockIncrProcess`, lines 75-293, for a file: full blocks, then with no more input what remains. -/
def blockIncr (f : Format) (p : Param) (prior : Option (List Item)) (content : List UInt8) : IncrResult :=
  let full := content.length / f.blockSize
  let st := (blocks f.blockSize full content).foldl (fun st b => flush f p false (addBlock f p prior st b)) (State.new p)
  let rest := content.drop (full * f.blockSize)
  let st := if rest.length > 0 then addBlock f p prior st rest else st
  finish f p prior (flush f p true st)

/-! ## Restore -/

/-- Repository files by reference and bundle (bundle 0 is the file on its own). -/
abbrev Repo := Nat → Nat → List UInt8

/-- Part of a file. -/
def slice (data : List UInt8) (offset size : Nat) : List UInt8 := (data.drop offset).take size

/-- What the manifest has on the file. -/
structure Entry (Digest : Type) where
  reference : Nat
  bundleId : Nat
  bundleOffset : Nat
  sizeRepo : Nat
  mapSize : Nat
  size : Nat
  checksum : Digest

/-- Load the map, lines 97-123 of src/command/backup/file.c.inc and 262-275 of src/command/restore/file.c.inc. The offset is
in lines 448-453 of src/command/restore/process.c.inc and 714 of src/command/backup/process.c.inc. A map that cannot be
decrypted is an error. -/
def loadMap {D : Type} (f : Format) (repo : Repo) (e : Entry D) : Res (List Item) :=
  match f.codec.unpackMap (slice (repo e.reference e.bundleId) (e.bundleOffset + e.sizeRepo - e.mapSize) e.mapSize) with
  | none => .error .crypto
  | some bytes => mapRead f.blockSize f.checksumSize bytes

/-- `BlockDeltaBlock`, src/command/restore/blockDelta.c:23-28. -/
structure DeltaBlock where
  no : Nat
  offset : Nat

/-- `BlockDeltaSuperBlock`, lines 16-21. -/
structure DeltaSuper where
  superBlockSize : Nat
  size : Nat
  blockList : List DeltaBlock

/-- `BlockDeltaRead`, src/command/restore/blockDelta.h. -/
structure DeltaRead where
  reference : Nat
  bundleId : Nat
  offset : Nat
  size : Nat
  superList : List DeltaSuper

/-- Blocks to be updated with their index in the map, lines 99-125. `checksums` is the block checksum list. -/
def needed (checksums : List (List UInt8)) (map : List Item) : List (Nat × Item) :=
  (map.mapIdx fun i x => (i, x)).filter fun (i, x) => decide (i ≥ checksums.length) || decide (checksums[i]? ≠ some x.checksum)

/-- The references of the blocks to be updated, in descending order, lines 110-128. -/
def neededRefs (blocks : List (Nat × Item)) : List Nat :=
  let rec insert (r : Nat) : List Nat → List Nat
    | [] => [r]
    | x :: xs => if r = x then x :: xs else if r > x then r :: x :: xs else x :: insert r xs
  blocks.foldl (fun l b => insert b.2.reference l) []

/-- Runs of neighbours that are related. -/
def groupAdj {α : Type} (rel : α → α → Bool) : List α → List (List α)
  | [] => []
  | x :: xs =>
    match groupAdj rel xs with
    | (y :: ys) :: rest => if rel x y then (x :: y :: ys) :: rest else [x] :: (y :: ys) :: rest
    | rest => [x] :: rest

/-- A super block to be read and the item it is for, lines 163-189. -/
def deltaSuper (blockSize : Nat) (g : (Nat × Item) × List (Nat × Item)) : Item × DeltaSuper :=
  (g.1.2, ⟨g.1.2.superBlockSize, g.1.2.size, (g.1 :: g.2).map fun b => ⟨b.2.block, b.1 * blockSize⟩⟩)

/-- A read, lines 143-161 and 176. -/
def deltaRead (supers : List (Item × DeltaSuper)) : List DeltaRead :=
  match supers with
  | [] => []
  | s :: _ => [⟨s.1.reference, s.1.bundleId, s.1.offset, (supers.map fun s => s.2.size).sum, supers.map Prod.snd⟩]

/-- The reads of a reference, lines 133-193: the blocks are split when the offset changes, and reads when the offset is
neither the same nor the one after the last super block. -/
def deltaReads (blockSize : Nat) (blocks : List (Nat × Item)) : List DeltaRead :=
  let supers := (groupKey (fun b : Nat × Item => b.2.offset) blocks).map (deltaSuper blockSize)
  (groupAdj (fun a b : Item × DeltaSuper => decide (a.1.offset + a.1.size = b.1.offset)) supers).flatMap deltaRead

/-- `blockDeltaNew`, lines 57-201. -/
def deltaNew (blockSize : Nat) (checksums : List (List UInt8)) (map : List Item) : List DeltaRead :=
  let need := needed checksums map
  (neededRefs need).flatMap fun r => deltaReads blockSize (need.filter fun b => b.2.reference == r)

/-- Find blocks in a super block, lines 257-286: `total` blocks remain to be read from `raw`, the next one has number
`idx`. After the last block is found the code continues to compare with its number, which is less than `idx`. -/
def findBlocks (blockSize : Nat) : (total idx : Nat) → (raw : List UInt8) → List DeltaBlock → List (Nat × List UInt8)
  | 0, _, _, _ => []
  | _, _, _, [] => []
  | total + 1, idx, raw, b :: bs =>
    if idx = b.no then (b.offset, raw.take blockSize) :: findBlocks blockSize total (idx + 1) (raw.drop blockSize) bs
    else findBlocks blockSize total (idx + 1) (raw.drop blockSize) (b :: bs)

/-- `blockDeltaNext` for all the super blocks of a read, lines 222-299: the blocks to be written. Data that remains in a super
block is an error. -/
def deltaNext (f : Format) : List DeltaSuper → List UInt8 → Res (List (Nat × List UInt8))
  | [], _ => .ok []
  | s :: rest, data =>
    match f.codec.unpack (data.take s.size) with
    | none => .error .crypto
    | some raw =>
      let total := blockTotal s.superBlockSize f.blockSize
      if raw.length > total * f.blockSize then .error .fileRead
      else do
        let next ← deltaNext f rest (data.drop s.size)
        return findBlocks f.blockSize total 0 raw s.blockList ++ next

/-- Write at an offset, lines 306-309 of src/command/restore/file.c.inc: a gap after the end is filled with zeroes. -/
def writeAt (file : List UInt8) (w : Nat × List UInt8) : List UInt8 :=
  file.take w.1 ++ List.replicate (w.1 - file.length) 0 ++ w.2 ++ file.drop (w.1 + w.2.length)

/-- The reads, lines 285-316. -/
def applyReads (f : Format) (repo : Repo) : List DeltaRead → (file : List UInt8) → Res (List UInt8)
  | [], file => .ok file
  | r :: rest, file => do
    let writes ← deltaNext f r.superList (slice (repo r.reference r.bundleId) r.offset r.size)
    applyReads f repo rest (writes.foldl writeAt file)

/-- `blockChecksum` filter, src/command/restore/blockChecksum.c, for a whole file: full blocks and what remains. -/
def blockChecksums (f : Format) (file : List UInt8) : List (List UInt8) :=
  (blocks f.blockSize (blockTotal file.length f.blockSize) file).map f.hash

/-- `restoreFile` for a block incremental file of size more than zero, src/command/restore/file.c.inc:72-368, when it does
not use size and time only (`deltaForce`). `existing` is the file that is there when restoring with `delta`, if any. -/
def restore {D : Type} [DecidableEq D] (f : Format) (sha : List UInt8 → D) (repo : Repo) (e : Entry D)
    (existing : Option (List UInt8)) : Res (List UInt8) :=
  let truncated := (existing.getD []).take e.size
  if truncated.length = e.size ∧ sha truncated = e.checksum then .ok truncated
  else do
    let map ← loadMap f repo e
    let file ← applyReads f repo (deltaNew f.blockSize (blockChecksums f truncated) map) truncated
    if sha file = e.checksum then .ok file else .error .checksum

end Verif.Block
