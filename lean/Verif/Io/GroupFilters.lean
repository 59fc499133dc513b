import Verif.Io.GroupProps

/-!
# Filter groups: the filters of the library, and examples (C66)
-/

namespace Verif.Io

/-- The state of the filters below: a number, a flag and bytes. -/
structure St where
  pos : Nat
  flag : Bool
  store : Str
  deriving DecidableEq, Repr

/-- `ioBufferNew` with this state. -/
def bufferF : Ops St := bufferOps (fun s => (s.pos, s.flag)) fun p => ⟨p.1, p.2, []⟩

/-- `ioSinkNew` (`src/common/io/filter/sink.c` 31-62): everything is discarded. -/
def sinkF : Ops St where
  out := true
  inFn s _ := .ok s
  inOut s input _ _ := match input with
    | none => .error .assert
    | some _ => .ok (s, [])
  inputSame := none
  done := none

/-- `ioSizeNew` (`src/common/io/filter/size.c` 39-100): the bytes of the input are counted in an `uint64_t`. -/
def sizeF : Ops St where
  out := false
  inFn s b := .ok { s with pos := (s.pos + b.length) % 2 ^ 64 }
  inOut s _ _ _ := .ok (s, [])
  inputSame := none
  done := none

/-- What `ioBuffer` promises: the output is the input. -/
def bufferS : Spec St where
  Ready s x y := s.pos = 0 ∧ s.flag = false ∧ y = x
  Busy s b x y := s.flag = true ∧ s.pos < b.length ∧ ∃ x0, x = x0 ++ b ∧ y = x0 ++ b.take s.pos
  Flush _ _ _ := False
  Final _ x y := y = x
  todo s b := b.length - s.pos
  Thr _ := False

theorem c66_buffer : Contract bufferF bufferS where
  new := by
    intro s x y b used room s' w _ ⟨h1, h2, h3⟩ hb hr h
    simp only [bufferF, bufferOps, h1, List.drop_zero, Nat.sub_zero, Nat.zero_add, Except.ok.injEq, Prod.mk.injEq] at h
    obtain ⟨rfl, rfl⟩ := h
    have hb' : 0 < b.length := List.length_pos_iff.2 hb
    subst h3
    refine ⟨by simp, ?_, ?_⟩
    · intro hs
      by_cases he : min b.length room = b.length
      · simp [he, same, bufferF, bufferOps] at hs
      · refine ⟨by simp; omega, ?_⟩
        rw [if_neg he]
        refine ⟨rfl, ?_, y, rfl, rfl⟩
        simp only
        omega
    · intro hs
      by_cases he : min b.length room = b.length
      · rw [if_pos he, he]
        exact ⟨rfl, rfl, by simp⟩
      · simp [he, same, bufferF, bufferOps] at hs
  again := by
    intro s x y b used room s' w _ ⟨h1, h2, x0, h3, h4⟩ hr h
    simp only [bufferF, bufferOps, Except.ok.injEq, Prod.mk.injEq] at h
    obtain ⟨rfl, rfl⟩ := h
    subst h3 h4
    have hcat : ∀ n, b.take s.pos ++ (b.drop s.pos).take n = b.take (s.pos + n) := by
      intro n
      rw [List.take_add]
    refine ⟨by simp, ?_, ?_⟩
    · intro hs
      by_cases he : s.pos + min (b.length - s.pos) room = b.length
      · simp [he, same, bufferF, bufferOps] at hs
      · rw [if_neg he]
        refine ⟨by simp; omega, ⟨rfl, ?_, x0, rfl, ?_⟩, ?_⟩
        · simp only
          omega
        · rw [List.append_assoc, hcat]
        · simp only [bufferS]
          omega
    · intro hs
      by_cases he : s.pos + min (b.length - s.pos) room = b.length
      · rw [if_pos he]
        refine ⟨rfl, rfl, ?_⟩
        rw [List.append_assoc, hcat, he, List.take_length]
      · simp [he, same, bufferF, bufferOps] at hs
  flush := by
    intro s x y used room s' w _ hp hf
    rcases hp with ⟨_, h2, _⟩ | h
    · simp [fin, same, bufferF, bufferOps, h2] at hf
    · exact h.elim
  final := by
    intro s x y hp _
    rcases hp with ⟨_, h2, h3⟩ | h
    · exact ⟨by simp [same, bufferF, bufferOps, h2], h3⟩
    · exact h.elim
  inn := by
    intro s x b s' h
    simp [bufferF, bufferOps] at h
  inOnly := by
    intro h
    simp [bufferF, bufferOps] at h
  newErr := by
    intro s x y b used room e _ _ _ _ h
    simp [bufferF, bufferOps] at h
  againErr := by
    intro s x y b used room e _ _ _ h
    simp [bufferF, bufferOps] at h
  flushErr := by
    intro s x y used room e _ hp hf
    rcases hp with ⟨_, h2, _⟩ | h
    · simp [fin, same, bufferF, bufferOps, h2] at hf
    · exact h.elim
  innErr := by
    intro s x b e _ _ _ h
    simp [bufferF, bufferOps] at h

/-- What `ioSink` promises: there is no output. -/
def sinkS : Spec St where
  Ready _ _ y := y = []
  Busy _ _ _ _ := False
  Flush _ _ _ := False
  Final _ _ y := y = []
  todo _ _ := 0
  Thr _ := False

theorem c66_sink : Contract sinkF sinkS where
  new := by
    intro s x y b used room s' w _ h1 hb hr h
    simp only [sinkF, Except.ok.injEq, Prod.mk.injEq] at h
    obtain ⟨rfl, rfl⟩ := h
    refine ⟨by simp, by simp [same, sinkF], fun _ => ?_⟩
    simpa [sinkS] using h1
  again := by
    intro s x y b used room s' w _ h1
    exact h1.elim
  flush := by
    intro s x y used room s' w _ hp hf
    simp [fin, same, sinkF] at hf
  final := by
    intro s x y hp _
    rcases hp with h | h
    · exact ⟨rfl, h⟩
    · exact h.elim
  inn := by
    intro s x b s' h
    simp [sinkF] at h
  inOnly := by
    intro h
    simp [sinkF] at h
  newErr := by
    intro s x y b used room e _ _ _ _ h
    simp [sinkF] at h
  againErr := by
    intro s x y b used room e _ _ _ h
    simp [sinkF] at h
  flushErr := by
    intro s x y used room e _ _ hf
    simp [fin, same, sinkF] at hf
  innErr := by
    intro s x b e _ _ _ h
    simp [sinkF] at h

/-- What `ioSize` promises: the number is the number of bytes of the input. -/
def sizeS : Spec St where
  Ready s x y := s.pos = x.length % 2 ^ 64 ∧ y = []
  Busy _ _ _ _ := False
  Flush _ _ _ := False
  Final s x _ := s.pos = x.length % 2 ^ 64
  todo _ _ := 0
  Thr _ := False

theorem c66_size : Contract sizeF sizeS where
  new := by
    intro s x y b used room s' w h
    simp [sizeF] at h
  again := by
    intro s x y b used room s' w h
    simp [sizeF] at h
  flush := by
    intro s x y used room s' w h
    simp [sizeF] at h
  final := by
    intro s x y hp _
    rcases hp with h | h
    · exact ⟨rfl, h.1⟩
    · exact h.elim
  inn := by
    intro s x b s' _ h1 _ h
    simp only [sizeF, Except.ok.injEq] at h
    subst h
    refine ⟨?_, rfl⟩
    simp only [List.length_append, h1.1]
    omega
  inOnly := fun _ => ⟨rfl, rfl⟩
  newErr := by
    intro s x y b used room e _ _ _ _ h
    simp [sizeF] at h
  againErr := by
    intro s x y b used room e _ _ _ h
    simp [sizeF] at h
  flushErr := by
    intro s x y used room e h
    simp [sizeF] at h
  innErr := by
    intro s x b e _ _ _ h
    simp [sizeF] at h

/-! ### Examples

A filter that keeps everything and gives it out twice at the end, as compression filters keep data until the end. -/

/-- The flag says that the end was seen. -/
def twiceF : Ops St where
  out := true
  inFn s _ := .ok s
  inOut s input _ room :=
    match input with
    | some b => .ok ({ s with store := s.store ++ b }, [])
    | none =>
      let l := if s.flag then s.store else s.store ++ s.store
      .ok ({ s with flag := true, store := l.drop room }, l.take room)
  inputSame := some fun s => s.flag && s.store ≠ []
  done := some fun s => s.flag && s.store = []

def twiceS : Spec St where
  Ready s x y := s.flag = false ∧ s.store = x ∧ y = []
  Busy _ _ _ _ := False
  Flush s x y := s.flag = true ∧ y ++ s.store = x ++ x
  Final _ x y := y = x ++ x
  todo s _ := s.store.length
  Thr _ := False

theorem twice_contract : Contract twiceF twiceS where
  new := by
    intro s x y b used room s' w _ ⟨h1, h2, h3⟩ hb hr h
    simp only [twiceF, Except.ok.injEq, Prod.mk.injEq] at h
    obtain ⟨rfl, rfl⟩ := h
    refine ⟨by simp, by simp [same, twiceF, h1], fun _ => ⟨h1, by simp [h2], by simp [h3]⟩⟩
  again := by
    intro s x y b used room s' w _ h1
    exact h1.elim
  flush := by
    intro s x y used room s' w _ hp hf hr h
    simp only [twiceF, Except.ok.injEq, Prod.mk.injEq] at h
    obtain ⟨rfl, rfl⟩ := h
    refine ⟨by simp, ⟨rfl, ?_⟩, ?_, ?_⟩
    · rcases hp with ⟨h1, h2, h3⟩ | ⟨h1, h2⟩
      · simp [h1, h2, h3]
      · simp [h1, h2]
    · intro hs
      simp only [same, twiceF, Bool.true_and, decide_eq_true_eq, ne_eq, List.drop_eq_nil_iff, not_le] at hs
      simp only [List.length_take]
      omega
    · intro ⟨h1, h2⟩ h3
      simp only [fin, twiceF, Bool.true_and, decide_eq_false_iff_not, List.drop_eq_nil_iff, not_le] at h3
      simp only [twiceS, List.length_drop, h1, if_true] at h3 ⊢
      omega
  final := by
    intro s x y hp hf
    simp only [fin, twiceF, Bool.and_eq_true, decide_eq_true_eq] at hf
    rcases hp with ⟨h1, _⟩ | ⟨h1, h2⟩
    · simp [h1] at hf
    · refine ⟨by simp [same, twiceF, hf.2], ?_⟩
      rw [hf.2, List.append_nil] at h2
      exact h2
  inn := by
    intro s x b s' h
    simp [twiceF] at h
  inOnly := by
    intro h
    simp [twiceF] at h
  newErr := by
    intro s x y b used room e _ _ _ _ h
    simp [twiceF] at h
  againErr := by
    intro s x y b used room e _ _ _ h
    simp [twiceF] at h
  flushErr := by
    intro s x y used room e _ _ _ _ h
    simp [twiceF] at h
  innErr := by
    intro s x b e _ _ _ h
    simp [twiceF] at h

/-- The start of the filters. -/
def st0 : St := ⟨0, false, []⟩

/-- A run of calls with the given inputs and output buffers of a size, as `ioWrite` and `ioWriteClose` make them: what the buffers got, the states of the
filters and whether the group is done. -/
def runs (cap : Nat) : List (Option Str) → Nat → Group St → Str → Option (Except Fail (Str × List St × Bool))
  | [], _, g, y => some (.ok (y, g.slots.map (·.st), g.done))
  | _ :: _, 0, _, _ => none
  | i :: is, k + 1, g, y =>
    match process 20 g i ⟨[], cap⟩ with
    | none => none
    | some (.error e) => some (.error e)
    | some (.ok (g', b)) => if (if i = none then !g'.done else g'.inputSame) then runs cap (i :: is) k g' (y ++ b.data) else runs cap is k g' (y ++ b.data)

-- through buffers of two bytes, counted before and after
example : runs 2 [some [1, 2, 3], some [4], none] 20 («open» 2 (bufferF, st0) [(sizeF, st0), (twiceF, st0), (sizeF, st0)]) [] =
    some (.ok ([1, 2, 3, 4, 1, 2, 3, 4], [⟨4, false, []⟩, ⟨0, true, []⟩, ⟨8, false, []⟩, ⟨0, false, []⟩], true)) := by decide +kernel

-- two of them, through buffers of different sizes
example : (runs 3 [some [1, 2], none] 20 («open» 1 (bufferF, st0) [(twiceF, st0), (twiceF, st0)]) []).map (·.map (·.1)) =
    some (.ok [1, 2, 1, 2, 1, 2, 1, 2]) := by decide +kernel

-- a sink
example : runs 3 [some [1, 2], some [3], none] 20 («open» 2 (bufferF, st0) [(sizeF, st0), (sinkF, st0)]) [] =
    some (.ok ([], [⟨3, false, []⟩, ⟨0, false, []⟩], true)) := by decide +kernel

-- the promises of all of them
example : ∃ S : Ops St → Spec St, ∀ f ∈ [(bufferF, st0), (sizeF, st0), (twiceF, st0), (sinkF, st0)], Fresh S f := by
  classical
  have h1 : sizeF ≠ bufferF := fun h => absurd (congrArg Ops.out h) (by simp [sizeF, bufferF, bufferOps])
  have h2 : twiceF ≠ bufferF := fun h => absurd (congrArg (fun o => o.done.isSome) h) (by simp [twiceF, bufferF, bufferOps])
  have h3 : twiceF ≠ sizeF := fun h => absurd (congrArg Ops.out h) (by simp [sizeF, twiceF])
  have h4 : sinkF ≠ bufferF := fun h => absurd (congrArg (fun o => o.inputSame.isSome) h) (by simp [sinkF, bufferF, bufferOps])
  have h5 : sinkF ≠ sizeF := fun h => absurd (congrArg Ops.out h) (by simp [sizeF, sinkF])
  have h6 : sinkF ≠ twiceF := fun h => absurd (congrArg (fun o => o.done.isSome) h) (by simp [twiceF, sinkF])
  refine ⟨fun o => if o = bufferF then bufferS else if o = sizeF then sizeS else if o = twiceF then twiceS else sinkS, ?_⟩
  intro f hf
  simp only [List.mem_cons, List.not_mem_nil, or_false] at hf
  rcases hf with rfl | rfl | rfl | rfl
  · simp only [Fresh, if_true]
    exact ⟨c66_buffer, by simp [bufferS, st0], rfl⟩
  · simp only [Fresh, if_neg h1, if_true]
    exact ⟨c66_size, by simp [sizeS, st0], rfl⟩
  · simp only [Fresh, if_neg h2, if_neg h3, if_true]
    exact ⟨twice_contract, by simp [twiceS, st0], rfl⟩
  · simp only [Fresh, if_neg h4, if_neg h5, if_neg h6]
    exact ⟨c66_sink, by simp [sinkS], rfl⟩

end Verif.Io
