import Verif.Io.WriteProps

/-!
# Seeking (C67)
-/

namespace Verif.Io

/-- A file: the position and the bytes. -/
structure Disk where
  pos : Nat
  data : Nat → Option UInt8

/-- Write at the position. -/
def Disk.write (k : Disk) (d : Str) : Disk :=
  ⟨k.pos + d.length, fun i => if k.pos ≤ i ∧ i < k.pos + d.length then d[i - k.pos]? else k.data i⟩

/-- What the driver does. -/
def Disk.dop (k : Disk) : Dop → Disk
  | .write d => k.write d
  | .seek p => { k with pos := p }

/-- What is asked for. -/
inductive Wop where
  | write (d : Str)
  | seek (p : Nat)
  | flush
  deriving DecidableEq, Repr

/-- What is meant by it. -/
def Disk.wop (k : Disk) : Wop → Disk
  | .write d => k.write d
  | .seek p => { k with pos := p }
  | .flush => k

/-- No seek to where data was written since the seek before. `start` is where that seek was to, `cur` where the next byte would be
written. -/
def SeekOk : (start cur : Nat) → List Wop → Prop
  | _, _, [] => True
  | start, cur, .write d :: l => SeekOk start (cur + d.length) l
  | start, cur, .seek p :: l => (p < start ∨ cur ≤ p) ∧ SeekOk p p l
  | start, cur, .flush :: l => SeekOk start cur l

/-- The calls of the library. -/
def runOps (fuel : Nat) : List Wop → Writer St → Option (Except Fail (Writer St))
  | [], w => ioWriteClose fuel w
  | .write d :: l, w =>
    match ioWrite fuel w d with
    | some (.ok w') => runOps fuel l w'
    | r => r
  | .seek p :: l, w => runOps fuel l (ioWriteSeek w p)
  | .flush :: l, w => runOps fuel l (ioWriteFlush w)

theorem disk_write_nil (k : Disk) : k.write [] = k := by
  obtain ⟨p, f⟩ := k
  simp only [Disk.write, List.length_nil, Nat.add_zero, Disk.mk.injEq, true_and]
  funext i
  rw [if_neg (by omega)]

theorem write_in {k : Disk} {d : Str} {i : Nat} (h : k.pos ≤ i ∧ i < k.pos + d.length) : (k.write d).data i = d[i - k.pos]? := if_pos h

theorem write_out {k : Disk} {d : Str} {i : Nat} (h : ¬(k.pos ≤ i ∧ i < k.pos + d.length)) : (k.write d).data i = k.data i := if_neg h

theorem write_pos (k : Disk) (d : Str) : (k.write d).pos = k.pos + d.length := rfl

theorem disk_ext {a b : Disk} (h1 : a.pos = b.pos) (h2 : ∀ i, a.data i = b.data i) : a = b := by
  obtain ⟨p, f⟩ := a
  obtain ⟨q, g⟩ := b
  simp only [Disk.mk.injEq]
  exact ⟨h1, funext h2⟩

theorem disk_write_append (k : Disk) (a b : Str) : (k.write a).write b = k.write (a ++ b) := by
  apply disk_ext
  · simp only [write_pos, List.length_append]
    omega
  · intro i
    by_cases h1 : k.pos + a.length ≤ i ∧ i < k.pos + a.length + b.length
    · rw [write_in (k := k.write a) h1, write_in (by rw [List.length_append]; omega), List.getElem?_append_right (by omega), write_pos]
      congr 1
      omega
    · rw [write_out (k := k.write a) h1]
      by_cases h2 : k.pos ≤ i ∧ i < k.pos + a.length
      · rw [write_in h2, write_in (by rw [List.length_append]; omega), List.getElem?_append_left (by omega)]
      · rw [write_out h2, write_out (by rw [List.length_append]; omega)]

theorem disk_chunks (ch : List Str) : ∀ k : Disk, (ch.map Dop.write).foldl Disk.dop k = k.write ch.flatten := by
  induction ch with
  | nil => intro k; simp [disk_write_nil]
  | cons c ch ih =>
    intro k
    simp only [List.map_cons, List.foldl_cons, List.flatten_cons]
    rw [ih, Disk.dop, disk_write_append]

/-- There is only the buffer, which promises what `bufferS` says. -/
def onlyBuf : Ops St → Spec St := fun _ => bufferS

theorem out_eq {E Y : Str} {w : Writer St} (hw : WInv onlyBuf E Y w) (ho : w.group.slots.map (·.ops) = [bufferF]) : Y = E := by
  obtain ⟨c, hg⟩ := hw.inv
  have hI := hg.inv ⟨[], 1⟩
  have hs := hw.same
  rw [hg.same] at hs
  cases hsl : w.group.slots with
  | nil => rw [hsl] at ho; simp at ho
  | cons s rest =>
    rw [hsl] at ho hI hs
    cases rest with
    | cons t r => simp at ho
    | nil =>
      obtain ⟨_, hk, _⟩ := hI
      simp only [KOut] at hk
      by_cases hf : s.flushing = true
      · simp [hf] at hk
      · have hsame : s.inputSame = false := by simpa using hs
        rw [if_neg hf] at hk
        have : ({ s with output := some (⟨[], 1⟩ : Buf) } : Slot St).inputSame = false := hsame
        rw [if_neg (by rw [this]; simp)] at hk
        exact hk.2.2

theorem chain_buf {g : Group St} {E Y : Str} (h : Chain onlyBuf g.filters E Y) (ho : g.slots.map (·.ops) = [bufferF]) : Y = E := by
  cases hsl : g.slots with
  | nil => rw [hsl] at ho; simp at ho
  | cons s rest =>
    rw [hsl] at ho
    cases rest with
    | cons t r => simp at ho
    | nil =>
      simp only [List.map_cons, List.map_nil, List.cons.injEq, and_true] at ho
      unfold Group.filters at h
      rw [hsl] at h
      simp only [List.map_cons, List.map_nil, Chain, ho] at h
      have : bufferF.out = true := rfl
      rw [if_pos this] at h
      obtain ⟨m, h1, rfl⟩ := h
      exact h1

theorem flush_inv {E Y : Str} {w : Writer St} (hw : WInv onlyBuf E Y w) : WInv onlyBuf E Y (ioWriteFlush w) ∧
    (ioWriteFlush w).output.data = [] ∧ (ioWriteFlush w).group = w.group ∧ (ioWriteFlush w).position = w.position ∧
    ∀ k, (ioWriteFlush w).log.foldl Disk.dop k = (w.log.foldl Disk.dop k).write w.output.data := by
  unfold ioWriteFlush
  by_cases he : w.output.data = []
  · rw [if_pos he]
    refine ⟨hw, he, rfl, rfl, fun k => ?_⟩
    rw [he, disk_write_nil]
  · rw [if_neg he]
    refine ⟨⟨hw.inv, hw.same, ?_⟩, rfl, rfl, rfl, fun k => ?_⟩
    · have := hw.room
      simp only [List.length_nil]
      omega
    · simp [List.foldl_append, Disk.dop]

/-- The state while writing: `K` is the file as it is meant to be. -/
structure SInv (k0 K : Disk) (start : Nat) (w : Writer St) : Prop where
  inv : ∃ E, WInv onlyBuf E E w
  ops : w.group.slots.map (·.ops) = [bufferF]
  disk : (w.log.foldl Disk.dop k0).write w.output.data = K
  lo : start ≤ w.position
  hi : w.position ≤ (w.log.foldl Disk.dop k0).pos

theorem runOps_spec (l : List Wop) : ∀ (k0 K : Disk) (start : Nat) (w : Writer St), SInv k0 K start w → SeekOk start K.pos l →
    ∃ r N, (∀ p, N ≤ p → runOps p l w = some r) ∧ (∀ e, r = .error e → Thrown onlyBuf e) ∧
      ∀ w', r = .ok w' → w'.log.foldl Disk.dop k0 = l.foldl Disk.wop K := by
  induction l with
  | nil =>
    intro k0 K start w h _
    obtain ⟨E, hw⟩ := h.inv
    obtain ⟨r, N, h1, h2, h3⟩ := ioWriteClose_spec hw
    refine ⟨r, N, h1, h2, ?_⟩
    intro w' hr
    obtain ⟨v, ch, j1, j2, j3, j4, _⟩ := h3 w' hr
    have := chain_buf j1 (j2.trans h.ops)
    have hv : v = [] := by simpa using this
    subst hv
    rw [List.append_nil] at j4
    rw [j3, List.foldl_append, disk_chunks, j4]
    exact h.disk
  | cons o l ih =>
    intro k0 K start w h hok
    obtain ⟨E, hw⟩ := h.inv
    cases o with
    | write d =>
      simp only [SeekOk] at hok
      obtain ⟨r, N, h1, h2, h3⟩ := ioWrite_spec (d := d) hw
      cases r with
      | error e => exact ⟨.error e, N, fun p hp => by simp [runOps, h1 p hp], h2, by simp⟩
      | ok w1 =>
        obtain ⟨v, ch, i1, i2, i3, i4, i5, i6, i7⟩ := h3 w1 rfl
        have hv := out_eq i1 (i3.trans h.ops)
        have hv' : v = d := by simpa using hv
        subst hv'
        have hS : SInv k0 (K.write v) start w1 := by
          refine ⟨⟨_, i1⟩, i3.trans h.ops, ?_, ?_, ?_⟩
          · rw [i4, List.foldl_append, disk_chunks, disk_write_append, i5, ← disk_write_append, h.disk]
          · rw [i7]; have := h.lo; omega
          · rw [i4, List.foldl_append, disk_chunks, i7]
            have := h.hi
            simp only [Disk.write]
            omega
        obtain ⟨r, N', k1, k2, k3⟩ := ih k0 (K.write v) start w1 hS hok
        refine ⟨r, max N N', fun p hp => ?_, k2, k3⟩
        simp only [runOps, h1 p (by omega)]
        exact k1 p (by omega)
    | seek q =>
      simp only [SeekOk] at hok
      obtain ⟨hq, hok⟩ := hok
      have hS : SInv k0 { K with pos := q } q (ioWriteSeek w q) := by
        unfold ioWriteSeek
        by_cases he : q = w.position
        · rw [if_pos he]
          have hd := h.disk
          have hp : K.pos = (w.log.foldl Disk.dop k0).pos + w.output.data.length := by rw [← hd]; rfl
          have h1 := h.lo
          have h2 := h.hi
          have hKq : K.pos = q := by omega
          have hK : ({ K with pos := q } : Disk) = K := by rw [← hKq]
          rw [hK]
          exact ⟨⟨E, hw⟩, h.ops, hd, by omega, h2⟩
        · rw [if_neg he]
          obtain ⟨f1, f2, f3, f4, f5⟩ := flush_inv hw
          refine ⟨⟨E, ⟨f1.inv, f1.same, f1.room⟩⟩, by rw [f3]; exact h.ops, ?_, Nat.le_refl _, ?_⟩
          · simp only [List.foldl_append, List.foldl_cons, List.foldl_nil, Disk.dop]
            rw [f2, disk_write_nil, f5, h.disk]
          · simp [List.foldl_append, Disk.dop]
      obtain ⟨r, N, k1, k2, k3⟩ := ih k0 _ q _ hS hok
      exact ⟨r, N, k1, k2, k3⟩
    | flush =>
      simp only [SeekOk] at hok
      obtain ⟨f1, f2, f3, f4, f5⟩ := flush_inv hw
      have hS : SInv k0 K start (ioWriteFlush w) := by
        refine ⟨⟨E, f1⟩, by rw [f3]; exact h.ops, ?_, by rw [f4]; exact h.lo, ?_⟩
        · rw [f2, disk_write_nil, f5, h.disk]
        · rw [f4, f5]
          have := h.hi
          simp only [Disk.write]
          omega
      obtain ⟨r, N, k1, k2, k3⟩ := ih k0 K start _ hS hok
      exact ⟨r, N, k1, k2, k3⟩

theorem fresh_buf : ∀ f ∈ [((bufferF, st0) : Ops St × St)], Fresh onlyBuf f := by
  intro f hf
  simp only [List.mem_singleton] at hf
  subst hf
  exact ⟨c66_buffer, by simp [onlyBuf, bufferS, st0], rfl⟩

/-- C67: writes, seeks and flushes without filters end without error and put the bytes where they belong, for any file and any size of the buffer,
provided no seek goes to where data was written since the seek before. -/
theorem c67_seek {size : Nat} (hsize : 0 < size) (data : Nat → Option UInt8) (l : List Wop) (hok : SeekOk 0 0 l) :
    ∃ w N, (∀ p, N ≤ p → runOps p l (writeOpen size (bufferF, st0) []) = some (.ok w)) ∧
      (w.log.foldl Disk.dop ⟨0, data⟩).data = (l.foldl Disk.wop ⟨0, data⟩).data := by
  have hS : SInv ⟨0, data⟩ ⟨0, data⟩ 0 (writeOpen size (bufferF, st0) []) :=
    ⟨⟨[], wInv_open hsize rfl fresh_buf⟩, rfl, by simp [writeOpen, disk_write_nil], Nat.le_refl _, Nat.le_refl _⟩
  obtain ⟨r, N, h1, h2, h3⟩ := runOps_spec l _ _ _ _ hS hok
  cases r with
  | error e =>
    obtain ⟨e', o, _, h⟩ := h2 e rfl
    exact h.elim
  | ok w => exact ⟨w, N, h1, by rw [h3 w rfl]⟩

/-- The calls of the restore of a file with block incremental (`src/command/restore/file.c.inc` 302-313): a seek and a write for each
block. -/
def blockOps (bs : List (Nat × Str)) : List Wop := bs.flatMap fun b => [.seek b.1, .write b.2]

theorem seekOk_blocks (bs : List (Nat × Str)) (hne : ∀ b ∈ bs, b.2 ≠ [])
    (hdis : bs.Pairwise fun a b => a.1 + a.2.length ≤ b.1 ∨ b.1 + b.2.length ≤ a.1) : ∀ start cur,
    (∀ b ∈ bs.head?, b.1 < start ∨ cur ≤ b.1) → SeekOk start cur (blockOps bs) := by
  induction bs with
  | nil => intro start cur _; trivial
  | cons b bs ih =>
    intro start cur h
    simp only [blockOps, List.flatMap_cons, List.cons_append, List.nil_append, SeekOk]
    refine ⟨h b (by simp), ?_⟩
    refine ih (fun c hc => hne c (by simp [hc])) (List.pairwise_cons.1 hdis).2 _ _ ?_
    intro c hc
    have hcm : c ∈ bs := List.mem_of_mem_head? hc
    have hl : 0 < c.2.length := List.length_pos_iff.2 (hne c (by simp [hcm]))
    rcases (List.pairwise_cons.1 hdis).1 c hcm with h | h
    · right; exact h
    · left; omega

theorem blocks_disk (bs : List (Nat × Str)) (hdis : bs.Pairwise fun a b => a.1 + a.2.length ≤ b.1 ∨ b.1 + b.2.length ≤ a.1) : ∀ (k : Disk) (i : Nat),
    (∀ b ∈ bs, b.1 ≤ i → i < b.1 + b.2.length → ((blockOps bs).foldl Disk.wop k).data i = b.2[i - b.1]?) ∧
    ((∀ b ∈ bs, ¬(b.1 ≤ i ∧ i < b.1 + b.2.length)) → ((blockOps bs).foldl Disk.wop k).data i = k.data i) := by
  induction bs with
  | nil =>
    intro k i
    simp [blockOps]
  | cons b bs ih =>
    intro k i
    have hd := List.pairwise_cons.1 hdis
    have hf : (blockOps (b :: bs)).foldl Disk.wop k = (blockOps bs).foldl Disk.wop (({ k with pos := b.1 } : Disk).write b.2) := by
      simp [blockOps, Disk.wop]
    rw [hf]
    obtain ⟨h1, h2⟩ := ih hd.2 (({ k with pos := b.1 } : Disk).write b.2) i
    constructor
    · intro c hc hlo hhi
      simp only [List.mem_cons] at hc
      rcases hc with rfl | hc
      · rw [h2]
        · simp [Disk.write, hlo, hhi]
        · intro c' hc'
          have := hd.1 c' hc'
          omega
      · exact h1 c hc hlo hhi
    · intro h
      rw [h2 fun c hc => h c (by simp [hc])]
      have := h b (by simp)
      simp only [Disk.write]
      rw [if_neg this]

/-- C67: blocks that do not overlap end up where they belong, in whatever order they are written, and nothing else is changed: this is
how a file is restored from blocks of several backups. -/
theorem c67_blocks {size : Nat} (hsize : 0 < size) (data : Nat → Option UInt8) (bs : List (Nat × Str)) (hne : ∀ b ∈ bs, b.2 ≠ [])
    (hdis : bs.Pairwise fun a b => a.1 + a.2.length ≤ b.1 ∨ b.1 + b.2.length ≤ a.1) :
    ∃ w N, (∀ p, N ≤ p → runOps p (blockOps bs) (writeOpen size (bufferF, st0) []) = some (.ok w)) ∧ ∀ i,
        (∀ b ∈ bs, b.1 ≤ i → i < b.1 + b.2.length → (w.log.foldl Disk.dop ⟨0, data⟩).data i = b.2[i - b.1]?) ∧
        ((∀ b ∈ bs, ¬(b.1 ≤ i ∧ i < b.1 + b.2.length)) → (w.log.foldl Disk.dop ⟨0, data⟩).data i = data i) := by
  obtain ⟨w, N, h1, h2⟩ := c67_seek hsize data (blockOps bs) (seekOk_blocks bs hne hdis 0 0 (by simp))
  refine ⟨w, N, h1, fun i => ?_⟩
  rw [h2]
  exact blocks_disk bs hdis ⟨0, data⟩ i

/-- What the driver was asked to do. -/
def logOf (r : Option (Except Fail (Writer St))) : Option (List Dop) :=
  match r with
  | some (.ok w) => some w.log
  | _ => none

/-- C67: `position` is not advanced by data that is only in the buffer, so a seek back to where the data since the last seek started is
taken for a seek to the current position and does nothing: the next write goes to the wrong place. -/
theorem c67_seek_back : ∃ l : List Wop, ∃ log, logOf (runOps 20 l (writeOpen 4 (bufferF, st0) [])) = some log ∧
    (log.foldl Disk.dop ⟨0, fun _ => none⟩).data 0 ≠ (l.foldl Disk.wop ⟨0, fun _ => none⟩).data 0 :=
  ⟨[.write [1, 2], .seek 0, .write [3]], [.write [1, 2, 3]], by decide +kernel, by decide +kernel⟩

-- three blocks, out of order, through a buffer of four bytes
example : logOf (runOps 20 (blockOps [(0, [1, 2, 3]), (6, [7, 8, 9, 10, 11]), (3, [4, 5, 6])]) (writeOpen 4 (bufferF, st0) [])) =
    some [.write [1, 2, 3], .seek 6, .write [7, 8, 9, 10], .write [11], .seek 3, .write [4, 5, 6]] := by decide +kernel

-- a seek to the current position is left out, after a flush it is not
example : logOf (runOps 20 [.write [1, 2, 3, 4], .seek 4, .write [5], .flush, .seek 5, .write [6]] (writeOpen 4 (bufferF, st0) [])) =
    some [.write [1, 2, 3, 4], .write [5], .seek 5, .write [6]] := by decide +kernel

-- through a filter that gives out everything twice at the end
example : logOf (writeRun 20 [[1, 2, 3], [], [4]] (writeOpen 3 (bufferF, st0) [(sizeF, st0), (twiceF, st0)])) =
    some [.write [1, 2, 3], .write [4, 1, 2], .write [3, 4]] := by decide +kernel

end Verif.Io
