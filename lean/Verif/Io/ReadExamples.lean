import Verif.Io.ReadProps

/-!
# Reading through filters: drivers, what is not as it should be, and examples (C68)
-/

namespace Verif.Io

/-- What `IoBufferRead` promises. -/
def bufferD : DSpec (Str × Bool) where
  Has s x := x = s.1 ∧ (s.2 = true → s.1 = [])
  left s := if s.2 then 0 else s.1.length + 1
  Thr _ := False

/-- C68: a buffer can be read from: it keeps the promises that `c68_stream` asks of a driver, with its bytes as content. -/
theorem c68_buffer : DContract bufferDrv bufferD where
  read := by
    intro d x room block d' w ⟨h1, h2⟩ he hr h
    obtain ⟨l, e⟩ := d
    simp only [bufferDrv] at he
    subst he
    simp only at h1
    subst h1
    simp only [bufferDrv, Bool.false_eq_true, if_false] at h
    split at h
    · rename_i hlt
      simp only [Except.ok.injEq, Prod.mk.injEq] at h
      obtain ⟨rfl, rfl⟩ := h
      refine ⟨by simp, ?_, x.drop room, by simp, rfl, by simp⟩
      simp only [bufferD, Bool.false_eq_true, if_false, List.length_drop]
      omega
    · rename_i hlt
      simp only [Except.ok.injEq, Prod.mk.injEq] at h
      obtain ⟨rfl, rfl⟩ := h
      exact ⟨by omega, by simp [bufferD], [], by simp, rfl, by simp⟩
  eof := by
    intro d x ⟨h1, h2⟩ he
    rw [h1]
    exact h2 he
  err := by
    intro d x room block e _ he _ h
    simp only [bufferDrv] at he h
    rw [he] at h
    simp only [Bool.false_eq_true, if_false] at h
    split at h <;> cases h

/-- C68: a buffer reports its end together with its last bytes: a read with room for all that is left gives all of it and
the reader is at the end, and a read with less room gives as many bytes as there is room for and is not at the end. -/
theorem c68_buffer_eof (x : Str) (room : Nat) (b : Bool) :
    (x.length ≤ room → bufferDrv.read (x, false) room b = .ok (([], true), x)) ∧
      (room < x.length → bufferDrv.read (x, false) room b = .ok ((x.drop room, false), x.take room)) := by
  constructor
  · intro h
    have : ¬ room < x.length := by omega
    simp [bufferDrv, this]
  · intro h
    simp [bufferDrv, h]

/-- A driver that gives out the next piece of a list at each read (some may be empty), as a socket does. The end is seen by a read that returns nothing. -/
def pieceDrv : Drv (List Str × Bool) where
  block := false
  read s room _ :=
    match s.1 with
    | [] => .ok (([], true), [])
    | c :: l => if room < c.length then .ok ((c.drop room :: l, false), c.take room) else .ok ((l, false), c)
  eof s := s.2

def pieceD : DSpec (List Str × Bool) where
  Has s x := x = s.1.flatten ∧ (s.2 = true → s.1 = [])
  left s := if s.2 then 0 else s.1.flatten.length + s.1.length + 1
  Thr _ := False

theorem piece_contract : DContract pieceDrv pieceD where
  read := by
    intro d x room block d' w ⟨h1, h2⟩ he hr h
    obtain ⟨l, e⟩ := d
    simp only [pieceDrv] at he
    subst he
    simp only at h1
    subst h1
    cases l with
    | nil =>
      simp only [pieceDrv, Except.ok.injEq, Prod.mk.injEq] at h
      obtain ⟨rfl, rfl⟩ := h
      exact ⟨by simp, by simp [pieceD], [], by simp, by simp [pieceD]⟩
    | cons c l =>
      simp only [pieceDrv] at h
      split at h
      · rename_i hlt
        simp only [Except.ok.injEq, Prod.mk.injEq] at h
        obtain ⟨rfl, rfl⟩ := h
        refine ⟨by simp, ?_, c.drop room ++ l.flatten, by simp [← List.append_assoc], by simp, by simp⟩
        simp only [pieceD, Bool.false_eq_true, if_false, List.flatten_cons, List.length_append, List.length_drop, List.length_cons]
        omega
      · rename_i hlt
        simp only [Except.ok.injEq, Prod.mk.injEq] at h
        obtain ⟨rfl, rfl⟩ := h
        refine ⟨by omega, ?_, l.flatten, by simp, rfl, by simp⟩
        simp only [pieceD, Bool.false_eq_true, if_false, List.flatten_cons, List.length_append, List.length_cons]
        omega
  eof := by
    intro d x ⟨h1, h2⟩ he
    rw [h1, h2 he]
    rfl
  err := by
    intro d x room block e _ he _ h
    simp only [pieceDrv] at h
    split at h
    · cases h
    · split at h <;> cases h

/-- The results and the rest. -/
def outcome {δ : Type} (r : Option (Except RFail (Reader St δ × List (Rres × Bool) × Str))) : Option (List (Rres × Bool) × Str) :=
  match r with
  | some (.ok a) => some a.2
  | _ => none

/-- C68, divergence: the last line, if it has no end, is returned by `ioReadLineParam` but not taken from the internal buffer: it is returned again, and read
again. -/
theorem c68_line_again : outcome (runReads bufferDrv 20 [.line true, .line true, .line true, .read 1] (readOpen 8 (bufferF, st0) [] ([97, 10, 98, 99], false))) =
    some ([(.line (.ok [97]), false), (.line (.ok [98, 99]), true), (.line (.ok [98, 99]), true), (.data [98], true)], [99]) := by decide +kernel

/-- C68, divergence: `ioReadFlush` with `errorOnBytes` says that there are no bytes when there are some in the internal buffer at the end. -/
theorem c68_flush_misses : outcome (runReads bufferDrv 20 [.line true, .flush true] (readOpen 8 (bufferF, st0) [] ([98, 99], false))) =
    some ([(.line (.ok [98, 99]), true), (.count (.ok 0), true)], [98, 99]) := by decide +kernel

/-- C68, divergence: `ioReadSmall` returns less than was asked for though there is more, if a filter asks for the same input at the end. -/
theorem c68_small_short : outcome (runReads bufferDrv 20 [.small 2, .small 2, .small 2] (readOpen 3 (bufferF, st0) [(twiceF, st0)] ([1, 2, 3], false))) =
    some ([(.data [1, 2], false), (.data [3], true), (.data [1, 2], true)], [3]) := by decide +kernel

/-! ### Examples -/

-- lines, numbers and bytes from pieces, through a buffer of 4 bytes and counted
example : outcome (runReads pieceDrv 30 [.line false, .varint, .read 3, .small 2, .flush true]
    (readOpen 4 (bufferF, st0) [(sizeF, st0)] ([[97], [], [98, 10, 172, 2, 1], [2, 3, 4], [5, 6]], false))) =
    some ([(.line (.ok [97, 98]), false), (.num (.ok 300), false), (.data [1, 2, 3], false), (.data [4, 5], false), (.count (.error .fileRead), true)], []) := by
  decide +kernel

-- a line that is too long, and a number that does not end
example : outcome (runReads pieceDrv 30 [.line true, .read 5, .varint, .line false] (readOpen 4 (bufferF, st0) [] ([[97, 98, 99, 100, 10], [200], [201]], false))) =
    some ([(.line (.error .fileRead), false), (.data [97, 98, 99, 100, 10], false), (.num (.error .fileRead), true), (.line (.error .fileRead), true)], []) := by
  decide +kernel

-- a filter that gives out everything at the end
example : outcome (runReads pieceDrv 30 [.read 1, .line true] (readOpen 2 (bufferF, st0) [(twiceF, st0), (sizeF, st0)] ([[1], [10]], false))) =
    some ([(.data [1], false), (.line (.ok []), false)], [1, 10]) := by decide +kernel

-- copy with a limit
example : (match copyClose pieceDrv 30 (readOpen 2 (bufferF, st0) [] ([[1, 2, 3], [], [4, 5]], false)) (writeOpen 3 (bufferF, st0) [(twiceF, st0)]) (some 4) with
    | some (.ok a) => some (a.1.2, a.2.log)
    | _ => none) = some ([5], [.write [1, 2, 3], .write [4, 1, 2], .write [3, 4]]) := by decide +kernel

-- the theorem applies to them
example : ∃ S : Ops St → Spec St, (∀ f ∈ [(bufferF, st0), (twiceF, st0), (sizeF, st0)], Fresh S f) ∧ pieceD.Has ([[1], [10]], false) [1, 10] := by
  classical
  have h1 : sizeF ≠ bufferF := fun h => absurd (congrArg Ops.out h) (by simp [sizeF, bufferF, bufferOps])
  have h2 : twiceF ≠ bufferF := fun h => absurd (congrArg (fun o => o.done.isSome) h) (by simp [twiceF, bufferF, bufferOps])
  have h3 : twiceF ≠ sizeF := fun h => absurd (congrArg Ops.out h) (by simp [sizeF, twiceF])
  refine ⟨fun o => if o = bufferF then bufferS else if o = sizeF then sizeS else twiceS, ?_, rfl, by simp⟩
  intro f hf
  simp only [List.mem_cons, List.not_mem_nil, or_false] at hf
  rcases hf with rfl | rfl | rfl
  · simp only [Fresh, if_true]
    exact ⟨c66_buffer, by simp [bufferS, st0], rfl⟩
  · simp only [Fresh, if_neg h2, if_neg h3]
    exact ⟨twice_contract, by simp [twiceS, st0], rfl⟩
  · simp only [Fresh, if_neg h1, if_true]
    exact ⟨c66_size, by simp [sizeS, st0], rfl⟩

-- small reads are complete without filters
example : Quiet (fun _ => bufferS) (readOpen 8 (bufferF, st0) [] (([1] : Str), false)) :=
  c68_quiet (fun _ _ _ _ h => h.elim) (by simp [lastOut])

end Verif.Io
