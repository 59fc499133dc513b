import Verif.Block.IncrModel

/-! # Model of the block checksum filter

src/command/restore/blockChecksum.c. The hash of a block is computed from the data that was given to it piece by piece. -/

namespace Verif.Block

/-- `BlockChecksum`, lines 15-23: `checksum` has the data given to the hash filter, if there is one. -/
structure ChecksumState where
  blockCurrent : Nat
  checksum : Option (List UInt8)
  list : List (List UInt8)

/-- The state that `blockChecksumNew` makes, lines 142-147. -/
def ChecksumState.new : ChecksumState := ⟨0, none, []⟩

/-- Create checksum object if needed, lines 54-63: the size and data of the current block. -/
def checksumCurrent (st : ChecksumState) : Nat × List UInt8 :=
  match st.checksum with
  | none => (0, [])
  | some data => (st.blockCurrent, data)

/-- One pass of the loop of `blockChecksumProcess`, lines 54-87, and how much input it used. -/
def checksumStep (blockSize : Nat) (hash : List UInt8 → List UInt8) (st : ChecksumState) (input : List UInt8) :
    ChecksumState × Nat :=
  let blockCurrent := (checksumCurrent st).1
  let data := (checksumCurrent st).2
  -- Calculate how much data to checksum and perform checksum, lines 65-70
  let blockRemains := blockSize - blockCurrent
  let size := if blockRemains < input.length then blockRemains else input.length
  let data := data ++ input.take size
  -- If the block size has been reached then output the checksum, lines 74-87
  let blockCurrent := blockCurrent + size
  (if blockCurrent = blockSize then ⟨blockCurrent, none, st.list ++ [hash data]⟩ else ⟨blockCurrent, some data, st.list⟩, size)

/-- `blockChecksumProcess`, lines 36-91. The number of passes is at most the size of the input (more cannot happen, see
`checksumProcess_used`). -/
def checksumProcess (blockSize : Nat) (hash : List UInt8 → List UInt8) : (fuel : Nat) → ChecksumState → List UInt8 → ChecksumState
  | 0, st, _ => st
  | fuel + 1, st, input =>
    if input.length = 0 then st
    else
      let next := checksumStep blockSize hash st input
      checksumProcess blockSize hash fuel next.1 (input.drop next.2)

/-- `blockChecksumResult`, lines 96-125. -/
def checksumResult (hash : List UInt8 → List UInt8) (st : ChecksumState) : List (List UInt8) :=
  match st.checksum with
  | none => st.list
  | some data => st.list ++ [hash data]

/-- The filter for a file that is read in pieces. -/
def checksumFilter (blockSize : Nat) (hash : List UInt8 → List UInt8) (buffers : List (List UInt8)) : List (List UInt8) :=
  checksumResult hash (buffers.foldl (fun st input => checksumProcess blockSize hash input.length st input) .new)

end Verif.Block
