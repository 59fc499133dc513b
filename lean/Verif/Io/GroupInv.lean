import Verif.Io.GroupModel
import Mathlib.Data.List.Basic

/-!
# Filter groups: what is assumed of a filter, and the invariant
-/

namespace Verif.Io

variable {σ : Type}

/-- What a filter promises. The arguments of the predicates are the state, all the input so far and all the output so far.
`Ready`: all input is used up. `Busy`: the last input is to be given again, it is the second argument. `Flush`: the end of the
input was seen. `Final`: the filter is done. `todo` bounds the number of further calls without new input, given
the input to be given again. `Thr`: the errors that the filter may throw. -/
structure Spec (σ : Type) where
  Ready : σ → Str → Str → Prop
  Busy : σ → Str → Str → Str → Prop
  Flush : σ → Str → Str → Prop
  Final : σ → Str → Str → Prop
  todo : σ → Str → Nat
  Thr : Err → Prop

/-- A filter keeps its promises. -/
structure Contract (o : Ops σ) (S : Spec σ) : Prop where
  /-- New input. -/
  new : ∀ {s x y b used room s' w}, o.out = true → S.Ready s x y → b ≠ [] → 0 < room →
    o.inOut s (some b) used room = .ok (s', w) →
    w.length ≤ room ∧ (same o s' = true → 0 < used + w.length ∧ S.Busy s' b (x ++ b) (y ++ w)) ∧
      (same o s' = false → S.Ready s' (x ++ b) (y ++ w))
  /-- The same input again. -/
  again : ∀ {s x y b used room s' w}, o.out = true → S.Busy s b x y → 0 < room →
    o.inOut s (some b) used room = .ok (s', w) →
    w.length ≤ room ∧ (same o s' = true → 0 < used + w.length ∧ S.Busy s' b x (y ++ w) ∧ S.todo s' b < S.todo s b) ∧
      (same o s' = false → S.Ready s' x (y ++ w))
  /-- The end of the input. -/
  flush : ∀ {s x y used room s' w}, o.out = true → S.Ready s x y ∨ S.Flush s x y → fin o s = false → 0 < room →
    o.inOut s none used room = .ok (s', w) →
    w.length ≤ room ∧ S.Flush s' x (y ++ w) ∧ (same o s' = true → 0 < used + w.length) ∧
      (S.Flush s x y → fin o s' = false → S.todo s' [] < S.todo s [])
  /-- Done. -/
  final : ∀ {s x y}, S.Ready s x y ∨ S.Flush s x y → fin o s = true → same o s = false ∧ S.Final s x y
  /-- A filter without output. -/
  inn : ∀ {s x b s'}, o.out = false → S.Ready s x [] → b ≠ [] → o.inFn s b = .ok s' → S.Ready s' (x ++ b) []
  inOnly : o.out = false → o.inputSame = none ∧ o.done = none
  /-- Errors. -/
  newErr : ∀ {s x y b used room e}, o.out = true → S.Ready s x y → b ≠ [] → 0 < room → o.inOut s (some b) used room = .error e → S.Thr e
  againErr : ∀ {s x y b used room e}, o.out = true → S.Busy s b x y → 0 < room → o.inOut s (some b) used room = .error e → S.Thr e
  flushErr : ∀ {s x y used room e}, o.out = true → S.Ready s x y ∨ S.Flush s x y → fin o s = false → 0 < room →
    o.inOut s none used room = .error e → S.Thr e
  innErr : ∀ {s x b e}, o.out = false → S.Ready s x [] → b ≠ [] → o.inFn s b = .error e → S.Thr e

/-- An error that some filter may throw, and not a failed check. -/
def Thrown (S : Ops σ → Spec σ) (e : Fail) : Prop := ∃ e' o, e = .filter e' ∧ (S o).Thr e'

/-- The state of a filter with output: `x` is the input so far, `cur` the buffer with the last input (`none` after the end of the
input), `y` the output so far. -/
def KOut (S : Spec σ) (s : Slot σ) (x : Str) (cur : Option Str) (y : Str) : Prop :=
  if s.flushing then cur = none ∧ if fin s.ops s.st then s.inputSame = false ∧ S.Final s.st x y else S.Flush s.st x y
  else if s.inputSame then ∃ b, cur = some b ∧ b ≠ [] ∧ S.Busy s.st b x y
  else S.Ready s.st x y

/-- The state of a filter without output. -/
def KIn (S : Spec σ) (s : Slot σ) (x : Str) (cur : Option Str) : Prop :=
  (s.flushing = true → cur = none) ∧ s.output = none ∧ S.Ready s.st x []

/-- Does the first filter with output need the same input? -/
def headSame : List (Slot σ) → Bool
  | [] => false
  | s :: rest => if s.ops.out then s.inputSame else headSame rest

/-- What is in the output buffer. -/
def held (s : Slot σ) : Option Str := s.output.map (·.data)

/-- The output buffer of a filter that is not the last. `busy` says that the next filter with output needs it again. -/
def BufOk (s : Slot σ) (busy : Bool) : Prop :=
  match s.output with
  | none => s.done = true
  | some b => b.data.length ≤ b.cap ∧ 0 < b.cap ∧ (busy = true → b.data ≠ []) ∧
      (busy = false → if s.done then b.data = [] else b.data.length < b.cap)

/-- The invariant: `E` is what was passed to the filters of the list and `cur` what is in the buffer in front of them, `Y` is all
they gave to the buffers of the caller. -/
def Inv (S : Ops σ → Spec σ) : (E : Str) → (cur : Option Str) → List (Slot σ) → (Y : Str) → Prop
  | _, _, [], _ => False
  | E, cur, [s], Y => s.ops.out = true ∧ KOut (S s.ops) s E cur Y ∧ (s.output = none → s.done = true)
  | E, cur, s :: t :: rest, Y =>
    if s.ops.out then
      ∃ E', KOut (S s.ops) s E cur (E' ++ if headSame (t :: rest) then [] else (held s).getD []) ∧
        BufOk s (headSame (t :: rest)) ∧ Inv S E' (held s) (t :: rest) Y
    else KIn (S s.ops) s E cur ∧ Inv S E cur (t :: rest) Y

/-- No filter needs the same input. -/
def NoSame (l : List (Slot σ)) : Prop := ∀ s ∈ l, s.inputSame = false

/-- There is room in the buffer of the caller. -/
def Room (l : List (Slot σ)) : Prop := ∀ b, outBuf l = some b → b.data.length < b.cap

/-- The buffer of the caller changes only by what is added and is not overrun. A buffer that is nulled is empty. -/
def Adds (l l' : List (Slot σ)) (w : Str) : Prop :=
  match outBuf l with
  | none => outBuf l' = none ∧ w = []
  | some b => (outBuf l' = some ⟨b.data ++ w, b.cap⟩ ∧ (b.data ++ w).length ≤ b.cap) ∨ (outBuf l' = none ∧ b.data = [] ∧ w = [])

/-- How far a filter is from being done, respectively from using up its input `cur`. -/
def mu (S : Ops σ → Spec σ) (cur : Option Str) (s : Slot σ) : Nat × Nat :=
  if s.done then (0, 0)
  else if s.flushing then (1, (S s.ops).todo s.st [])
  else (2, if s.inputSame then (S s.ops).todo s.st (cur.getD []) + 1 else 0)

/-- The same for all filters of a list. -/
def mus (S : Ops σ → Spec σ) (cur : Option Str) : List (Slot σ) → List (Nat × Nat)
  | [] => []
  | s :: rest => mu S cur s :: mus S (if s.ops.out then held s else cur) rest

/-- The lexicographic order of pairs. -/
def PLt (a b : Nat × Nat) : Prop := a.1 < b.1 ∨ a.1 = b.1 ∧ a.2 < b.2

/-- The lexicographic order of lists of the same length. -/
def LLt : List (Nat × Nat) → List (Nat × Nat) → Prop
  | a :: l, b :: l' => (PLt a b ∧ l.length = l'.length) ∨ (a = b ∧ LLt l l')
  | _, _ => False

theorem same_false_of_in {o : Ops σ} {S : Spec σ} (h : Contract o S) (ho : o.out = false) (s : σ) : same o s = false := by
  simp [same, (h.inOnly ho).1]

theorem fin_true_of_in {o : Ops σ} {S : Spec σ} (h : Contract o S) (ho : o.out = false) (s : σ) : fin o s = true := by
  simp [fin, (h.inOnly ho).2, same_false_of_in h ho]

@[simp] theorem mus_length (S : Ops σ → Spec σ) (cur : Option Str) (l : List (Slot σ)) : (mus S cur l).length = l.length := by
  induction l generalizing cur with
  | nil => rfl
  | cons s rest ih => simp [mus, ih]

theorem mu_cur {S : Ops σ → Spec σ} {s : Slot σ} (c c' : Option Str) (h : s.inputSame = false) : mu S c s = mu S c' s := by
  simp [mu, h]

theorem headSame_of_noSame {l : List (Slot σ)} (h : NoSame l) : headSame l = false := by
  induction l with
  | nil => rfl
  | cons s rest ih =>
    simp only [headSame]
    split
    · exact h s (by simp)
    · exact ih fun t ht => h t (by simp [ht])

theorem mus_cur {S : Ops σ → Spec σ} {l : List (Slot σ)} (hC : ∀ s ∈ l, Contract s.ops (S s.ops)) (c c' : Option Str)
    (h : headSame l = false) : mus S c l = mus S c' l := by
  induction l with
  | nil => rfl
  | cons s rest ih =>
    simp only [mus]
    by_cases ho : s.ops.out = true
    · rw [headSame, if_pos ho] at h
      rw [if_pos ho, if_pos ho, mu_cur c c' h]
    · rw [headSame, if_neg ho] at h
      rw [if_neg ho, if_neg ho, ih (fun t ht => hC t (by simp [ht])) h,
        mu_cur c c' (same_false_of_in (hC s (by simp)) (by simpa using ho) _)]

/-- Without a filter that holds it, the buffer in front of a list does not matter. -/
theorem inv_cur {S : Ops σ → Spec σ} {E Y : Str} {c c' : Option Str} {l : List (Slot σ)} (hs : headSame l = false)
    (hc : c' = none ∨ c ≠ none) (h : Inv S E c l Y) : Inv S E c' l Y := by
  have hk : ∀ {s : Slot σ} {x y}, s.inputSame = false → KOut (S s.ops) s x c y → KOut (S s.ops) s x c' y := by
    intro s x y hs hk
    unfold KOut at hk ⊢
    by_cases hf : s.flushing = true
    · rw [if_pos hf] at hk ⊢
      refine ⟨?_, hk.2⟩
      rcases hc with h | h
      · exact h
      · exact absurd hk.1 h
    · rw [if_neg hf] at hk ⊢
      rw [hs] at hk ⊢
      simpa using hk
  induction l with
  | nil => exact h.elim
  | cons s rest ih =>
    cases rest with
    | nil =>
      obtain ⟨h1, h2, h3⟩ := h
      refine ⟨h1, hk ?_ h2, h3⟩
      simpa [headSame, h1] using hs
    | cons t rest =>
      simp only [Inv] at h ⊢
      by_cases ho : s.ops.out = true
      · rw [if_pos ho] at h ⊢
        obtain ⟨E', h1, h2, h3⟩ := h
        have : s.inputSame = false := by simpa [headSame, ho] using hs
        exact ⟨E', hk this h1, h2, h3⟩
      · rw [if_neg ho] at h ⊢
        obtain ⟨⟨h1, h1', h1''⟩, h2⟩ := h
        refine ⟨⟨fun hf => ?_, h1', h1''⟩, ih ?_ h2⟩
        · rcases hc with h | h
          · exact h
          · exact absurd (h1 hf) h
        · rw [headSame, if_neg ho] at hs
          exact hs

end Verif.Io
