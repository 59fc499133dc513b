import Verif.Archive.StatusModel
import Verif.Archive.QueueProps
import Verif.Num.Props

/-! # C18: the status of asynchronous archiving is reported faithfully -/

namespace Verif.Archive

open Verif.Num

/-! ## Specification -/

/-- A file is in the spool directory. -/
def Spool.has (spool : Spool) (name : Str) : Prop := ∃ content, (name, content) ∈ spool

/-- Text that the program writes has no zero byte. -/
def Text (s : Str) : Prop := ∀ c ∈ s, c ≠ 0

/-- Text that does not begin or end with white space, so it is read as it was written. -/
def Trimmed (s : Str) : Prop := (∀ c, s.head? = some c → isTrim c = false) ∧ ∀ c, s.getLast? = some c → isTrim c = false

/-! ## Lemmas -/

theorem get_isSome {spool : Spool} {name : Str} : (∃ c, spool.get name = some c) ↔ spool.has name := by
  unfold Spool.get Spool.has
  constructor
  · rintro ⟨c, h⟩
    obtain ⟨f, hf, rfl⟩ := Option.map_eq_some_iff.1 h
    have h1 := List.find?_some hf
    have h2 := List.mem_of_find?_eq_some hf
    simp only [beq_iff_eq] at h1
    exact ⟨f.2, by rw [← h1]; exact h2⟩
  · rintro ⟨c, h⟩
    cases hf : spool.find? fun f => f.1 == name with
    | some f => exact ⟨f.2, rfl⟩
    | none =>
      rw [List.find?_eq_none] at hf
      exact absurd (by simp) (hf _ h)

theorem get_none {spool : Spool} {name : Str} : spool.get name = none ↔ ¬ spool.has name := by
  rw [← get_isSome]
  cases spool.get name <;> simp

theorem get_putFile (name : Str) (data : Bytes) (other : Str) : ∀ spool : Spool,
    Spool.get (putFile name data spool) other = if other = name then some data else spool.get other
  | [] => by
    unfold Spool.get putFile
    by_cases h : other = name
    · subst h; simp
    · have : ¬ name = other := fun h' => h h'.symm
      simp [h, this]
  | (n, d) :: spool => by
    have ih := get_putFile name data other spool
    unfold Spool.get at ih ⊢
    rw [putFile]
    by_cases hn : n = name
    · subst hn
      rw [if_pos rfl, List.find?_cons, List.find?_cons]
      by_cases h : other = n
      · subst h; simp
      · have : (n == other) = false := by simpa using fun h' => h h'.symm
        rw [this, if_neg h]
    · rw [if_neg hn, List.find?_cons, List.find?_cons]
      by_cases h : n = other
      · subst h
        simp [hn]
      · have : (n == other) = false := by simpa using h
        rw [this]
        exact ih

theorem get_remove (spool : Spool) (name other : Str) :
    (spool.remove name).get other = if other = name then none else spool.get other := by
  unfold Spool.remove Spool.get
  rw [List.find?_filter]
  by_cases h : other = name
  · subst h
    rw [if_pos rfl, List.find?_eq_none.2]
    · rfl
    · intro f _
      cases hf : f.1 == other <;> simp_all
  · rw [if_neg h]
    congr 2
    funext f
    by_cases hf : f.1 = other
    · rw [hf]
      simp [h]
    · simp [hf]

theorem ok_ne_error (a b : Str) : a ++ okExt ≠ b ++ errorExt := by
  intro h
  have := congrArg List.reverse h
  simp [okExt, errorExt] at this

theorem has_remove {spool : Spool} {name other : Str} : (spool.remove name).has other ↔ other ≠ name ∧ spool.has other := by
  rw [← get_isSome, ← get_isSome, get_remove]
  by_cases h : other = name
  · simp [h]
  · simp [h]

theorem has_errorClear {spool : Spool} {seg name : Str} :
    (errorClear spool seg).has name ↔ name ≠ globalName ++ errorExt ∧ name ≠ seg ++ errorExt ∧ spool.has name := by
  unfold errorClear
  rw [has_remove, has_remove]

theorem dropWhile_eq_self {p : UInt8 → Bool} : ∀ {s : Str}, (∀ c, s.head? = some c → p c = false) → s.dropWhile p = s
  | [], _ => rfl
  | c :: s, h => by rw [List.dropWhile_cons, h c rfl]; rfl

theorem trim_trimmed {s : Str} (h : Trimmed s) : trim s = s := by
  unfold trim
  rw [dropWhile_eq_self h.1, dropWhile_eq_self (by rw [List.head?_reverse]; exact h.2), List.reverse_reverse]

/-- Digits and sign of a number have neither zero nor line feed. -/
theorem intToZ_text (n : Int) : ∀ c ∈ intToZ n, c ≠ 0 ∧ c ≠ 0x0a := by
  have hd : ∀ d : Nat, d < 10 → digitChar false d ≠ 0 ∧ digitChar false d ≠ 0x0a := by decide
  have hf : ∀ n : Nat, ∀ c ∈ fmt 10 false n, c ≠ 0 ∧ c ≠ 0x0a := by
    intro n
    induction n using Nat.strong_induction_on with
    | _ n ih =>
      intro c hc
      rw [fmt] at hc
      split at hc
      · rw [List.mem_singleton] at hc
        rw [hc]
        exact hd n (by omega)
      · rcases List.mem_append.1 hc with hc | hc
        · exact ih (n / 10) (by omega) c hc
        · rw [List.mem_singleton] at hc
          rw [hc]
          exact hd _ (by omega)
  intro c hc
  unfold intToZ at hc
  split at hc
  · rcases List.mem_cons.1 hc with rfl | hc
    · decide
    · exact hf _ c hc
  · exact hf _ c hc

theorem toInt_intToZ (n : Int) (h1 : - 2 ^ 31 ≤ n) (h2 : n < 2 ^ 31) : toInt (intToZ n) = .ok n := by
  unfold toInt
  rw [c51_int_roundtrip n (by omega) (by omega)]
  simp only
  rw [if_neg (by omega)]

theorem takeWhile_append_of {p : UInt8 → Bool} : ∀ {a b : Str}, (∀ c ∈ a, p c = true) → (a ++ b).takeWhile p = a ++ b.takeWhile p
  | [], _, _ => rfl
  | c :: a, b, h => by
    rw [List.cons_append, List.takeWhile_cons, h c (.head _), if_pos rfl, takeWhile_append_of fun d hd => h d (.tail _ hd)]
    rfl

theorem dropWhile_append_of {p : UInt8 → Bool} : ∀ {a b : Str}, (∀ c ∈ a, p c = true) → (a ++ b).dropWhile p = b.dropWhile p
  | [], _, _ => rfl
  | c :: a, b, h => by
    rw [List.cons_append, List.dropWhile_cons, h c (.head _), if_pos rfl, dropWhile_append_of fun d hd => h d (.tail _ hd)]

/-- A code and a message are read as they were written. -/
theorem parse_written (code : Int) (message : Str) (h1 : - 2 ^ 31 ≤ code) (h2 : code < 2 ^ 31) (ht : Text message) (hne : message ≠ []) :
    parseStatus (intToZ code ++ [0x0a] ++ message) = .ok (some (code, trim message)) := by
  have hz : (intToZ code ++ [0x0a] ++ message).takeWhile (· != 0) = intToZ code ++ [0x0a] ++ message := by
    have := takeWhile_append_of (p := (· != 0)) (a := intToZ code ++ [0x0a] ++ message) (b := []) ?_
    · simpa using this
    · intro c hc
      rcases List.mem_append.1 hc with hc | hc
      · rcases List.mem_append.1 hc with hc | hc
        · simpa using (intToZ_text code c hc).1
        · rw [List.mem_singleton] at hc; subst hc; decide
      · simpa using ht c hc
  have hd : (intToZ code ++ [0x0a] ++ message).dropWhile (· != 0x0a) = 0x0a :: message := by
    rw [List.append_assoc, dropWhile_append_of fun c hc => by simpa using (intToZ_text code c hc).2]
    rfl
  have htk : (intToZ code ++ [0x0a] ++ message).takeWhile (· != 0x0a) = intToZ code := by
    rw [List.append_assoc, takeWhile_append_of fun c hc => by simpa using (intToZ_text code c hc).2]
    simp
  unfold parseStatus
  rw [if_neg (by simp)]
  simp only
  rw [hz, hd, htk]
  simp only
  rw [if_neg hne, toInt_intToZ code h1 h2]

/-! ## Theorems -/

/-- Success is reported only when the ok file of the segment exists, whatever else is in the directory. -/
theorem c18_success (spool : Spool) (seg : Str) (throwOnError warnOnOk : Bool) (w : Option (Int × Str))
    (h : asyncStatus spool seg throwOnError warnOnOk = .ok w) : spool.has (seg ++ okExt) := by
  rw [← get_isSome]
  unfold asyncStatus at h
  cases hg : spool.get (seg ++ okExt) with
  | some c => exact ⟨c, rfl⟩
  | none =>
    rw [hg] at h
    simp only at h
    split at h
    · cases h
    · split at h
      · cases h
      · split at h
        · split at h <;> cases h
        · cases h

/-- An error is reported only when there is an ok file that cannot be read, or no ok file and an error file for the segment or a
global one, and when errors are not to be thrown, only if it cannot be read. -/
theorem c18_error (spool : Spool) (seg : Str) (throwOnError warnOnOk : Bool) (code : Int) (message : Str) (e : Err) :
    (asyncStatus spool seg throwOnError warnOnOk = .thrown code message → throwOnError = true ∧ ¬ spool.has (seg ++ okExt) ∧
      ∃ content, (spool.get (seg ++ errorExt) = some content ∨
        ¬ spool.has (seg ++ errorExt) ∧ spool.get (globalName ++ errorExt) = some content) ∧
        parseStatus content = .ok (some (code, message))) ∧
    (asyncStatus spool seg throwOnError warnOnOk = .fail e →
      ∃ name ∈ [seg ++ okExt, seg ++ errorExt, globalName ++ errorExt], ∃ content, spool.get name = some content ∧
        (parseStatus content = .error e ∨ content = [] ∧ e = .assert ∧ throwOnError = true ∧ name ≠ seg ++ okExt)) := by
  unfold asyncStatus
  cases hg : spool.get (seg ++ okExt) with
  | some c =>
    simp only
    constructor
    · intro h
      split at h <;> cases h
    · intro h
      refine ⟨_, .head _, c, hg, ?_⟩
      cases hp : parseStatus c with
      | error e' => rw [hp] at h; cases h; exact .inl rfl
      | ok c' => rw [hp] at h; cases h
  | none =>
    simp only
    have hor : ∀ content, (spool.get (seg ++ errorExt)).or (spool.get (globalName ++ errorExt)) = some content →
        spool.get (seg ++ errorExt) = some content ∨
          ¬ spool.has (seg ++ errorExt) ∧ spool.get (globalName ++ errorExt) = some content := by
      intro content h
      cases hs : spool.get (seg ++ errorExt) with
      | some c => rw [hs] at h; exact .inl h
      | none => rw [hs] at h; exact .inr ⟨get_none.1 hs, h⟩
    constructor
    · intro h
      split at h
      · cases h
      · rename_i content hc
        cases hp : parseStatus content with
        | error e' => rw [hp] at h; cases h
        | ok c' =>
          rw [hp] at h
          simp only at h
          split at h
          · rename_i ht
            cases c' with
            | none => cases h
            | some cm =>
              cases h
              exact ⟨ht, get_none.1 hg, content, hor content hc, hp⟩
          · cases h
    · intro h
      split at h
      · cases h
      · rename_i content hc
        have hname : ∃ name ∈ [seg ++ okExt, seg ++ errorExt, globalName ++ errorExt], spool.get name = some content ∧
            name ≠ seg ++ okExt := by
          rcases hor content hc with h | ⟨_, h⟩
          · exact ⟨_, .tail _ (.head _), h, fun he => ok_ne_error _ _ he.symm⟩
          · exact ⟨_, .tail _ (.tail _ (.head _)), h, fun he => ok_ne_error _ _ he.symm⟩
        obtain ⟨name, hn, hget, hne⟩ := hname
        refine ⟨name, hn, content, hget, ?_⟩
        cases hp : parseStatus content with
        | error e' => rw [hp] at h; cases h; exact .inl rfl
        | ok c' =>
          rw [hp] at h
          simp only at h
          split at h
          · rename_i ht
            cases c' with
            | none =>
              cases h
              right
              refine ⟨?_, rfl, ht, hne⟩
              unfold parseStatus at hp
              split at hp
              · assumption
              · simp only at hp
                split at hp
                · cases hp
                · split at hp
                  · cases hp
                  · split at hp <;> cases hp
            | some cm => cases h
          · cases h

/-- Without an ok file, an error file of the segment or a global error the process keeps waiting. -/
theorem c18_wait (spool : Spool) (seg : Str) (throwOnError warnOnOk : Bool) (h1 : ¬ spool.has (seg ++ okExt))
    (h2 : ¬ spool.has (seg ++ errorExt)) (h3 : ¬ spool.has (globalName ++ errorExt)) :
    asyncStatus spool seg throwOnError warnOnOk = .wait := by
  unfold asyncStatus
  rw [get_none.2 h1, get_none.2 h2, get_none.2 h3]
  rfl

/-- Files of other segments do not matter. -/
theorem c18_other (spool spool' : Spool) (seg : Str) (throwOnError warnOnOk : Bool)
    (h : ∀ name ∈ [seg ++ okExt, seg ++ errorExt, globalName ++ errorExt], spool.get name = spool'.get name) :
    asyncStatus spool seg throwOnError warnOnOk = asyncStatus spool' seg throwOnError warnOnOk := by
  unfold asyncStatus
  rw [h _ (.head _), h _ (.tail _ (.head _)), h _ (.tail _ (.tail _ (.head _)))]

/-- What the asynchronous process writes is what the foreground process reports: success, with the warning if there is one. Success
has precedence over errors. -/
theorem c18_ok_written (spool : Spool) (seg : Str) (throwOnError : Bool) (warning : Option Str)
    (hw : ∀ w, warning = some w → Text w ∧ w ≠ []) :
    asyncStatus (okWrite spool seg warning) seg throwOnError true = .ok (warning.map fun w => (0, trim w)) := by
  unfold asyncStatus okWrite
  rw [get_putFile, if_pos rfl]
  cases warning with
  | none => rfl
  | some w =>
    obtain ⟨ht, hne⟩ := hw w rfl
    have := parse_written 0 w (by decide) (by decide) ht hne
    have hz : intToZ 0 = [0x30] := by
      unfold intToZ
      rw [if_neg (by decide), fmt]
      rfl
    rw [hz] at this
    simp only
    rw [show [0x30, 0x0a] ++ w = [0x30] ++ [0x0a] ++ w from rfl, this]
    rfl

/-- An error that is written for the segment, or for all, is reported with its code and message while there is no ok file (nor an
error of the segment when it is for all). -/
theorem c18_error_written (spool : Spool) (seg : Str) (glob : Bool) (warnOnOk : Bool) (code : Int) (message : Str)
    (h1 : - 2 ^ 31 ≤ code) (h2 : code < 2 ^ 31) (ht : Text message) (hne : message ≠ []) (hok : ¬ spool.has (seg ++ okExt))
    (hs : glob = true → ¬ spool.has (seg ++ errorExt)) :
    asyncStatus (errorWrite spool (if glob then none else some seg) code message) seg true warnOnOk = .thrown code (trim message) := by
  unfold asyncStatus errorWrite
  rw [get_putFile, if_neg (ok_ne_error _ _), get_none.2 hok]
  simp only
  have hp := parse_written code message h1 h2 ht hne
  cases glob with
  | false =>
    rw [get_putFile]
    simp only [Bool.false_eq_true, if_false, Option.getD_some, if_true, Option.some_or]
    rw [hp]
  | true =>
    simp only [if_true, Option.getD_none]
    rw [get_putFile, get_putFile, if_pos rfl]
    by_cases hg : seg ++ errorExt = globalName ++ errorExt
    · rw [if_pos hg]
      simp only [Option.some_or]
      rw [hp]
    · rw [if_neg hg, get_none.2 (hs rfl)]
      simp only [Option.none_or]
      rw [hp]

/-! ### The loop in the foreground -/

/-- PostgreSQL is told that a segment was archived only if its ok file was there: if it is not there at first and other processes do
not write it, whatever else they do and whatever the lock does, the result is not success. -/
theorem c18_push_success (seg : Str) (passes : List Pass) (spool : Spool) (hs : ¬ spool.has (seg ++ okExt))
    (hp : ∀ p ∈ passes, ∀ s : Spool, ¬ s.has (seg ++ okExt) → ¬ (p.change s).has (seg ++ okExt)) (w : Option (Int × Str)) :
    pushAsync seg spool passes ≠ .ok w := by
  unfold pushAsync
  suffices ∀ t f, pushWait seg spool t f passes ≠ .ok w from this _ _
  induction passes generalizing spool with
  | nil => intro t f h; cases h
  | cons p passes ih =>
    intro t f h
    rw [pushWait] at h
    have hs' := hp p (.head _) spool hs
    have hp' : ∀ q ∈ passes, ∀ s : Spool, ¬ s.has (seg ++ okExt) → ¬ (q.change s).has (seg ++ okExt) := fun q hq => hp q (.tail _ hq)
    split at h
    · split at h
      · exact ih _ (fun hc => hs' (has_errorClear.1 hc).2.2) hp' _ _ h
      · exact ih _ hs' hp' _ _ h
    · exact hs' (c18_success _ _ _ _ _ h)

/-- No stale error is reported: when the process gets the lock at first (so starts the asynchronous process) and then no error file is
written for the segment or for all, the result is success, a timeout or a status file that cannot be read. -/
theorem c18_push_no_stale_error (seg : Str) (p : Pass) (passes : List Pass) (spool : Spool) (hl : p.lock = true)
    (hp : ∀ q ∈ passes, ∀ s : Spool, (¬ s.has (seg ++ errorExt) ∧ ¬ s.has (globalName ++ errorExt)) →
      ¬ (q.change s).has (seg ++ errorExt) ∧ ¬ (q.change s).has (globalName ++ errorExt)) (code : Int) (message : Str) :
    pushAsync seg spool (p :: passes) ≠ .thrown code message := by
  have hloop : ∀ (passes : List Pass) (s : Spool) (t f : Bool), (∀ q ∈ passes, ∀ s : Spool,
      (¬ s.has (seg ++ errorExt) ∧ ¬ s.has (globalName ++ errorExt)) →
      ¬ (q.change s).has (seg ++ errorExt) ∧ ¬ (q.change s).has (globalName ++ errorExt)) →
      ¬ s.has (seg ++ errorExt) ∧ ¬ s.has (globalName ++ errorExt) → pushWait seg s t f passes ≠ .thrown code message := by
    intro passes
    induction passes with
    | nil => intro s t f _ _ h; cases h
    | cons q passes ih =>
      intro s t f hq hs h
      rw [pushWait] at h
      have hs' := hq q (.head _) s hs
      have hq' := fun r hr => hq r (.tail _ hr)
      split at h
      · split at h
        · refine ih _ _ _ hq' ⟨fun hc => ?_, fun hc => ?_⟩ h
          · exact (has_errorClear.1 hc).2.1 rfl
          · exact (has_errorClear.1 hc).1 rfl
        · exact ih _ _ _ hq' hs' h
      · obtain ⟨_, _, content, hc, _⟩ := (c18_error _ _ _ _ code message .assert).1 h
        rcases hc with hc | ⟨_, hc⟩
        · exact hs'.1 (get_isSome.1 ⟨_, hc⟩)
        · exact hs'.2 (get_isSome.1 ⟨_, hc⟩)
  intro h
  unfold pushAsync at h
  rw [pushWait] at h
  split at h
  · rw [hl] at h
    refine hloop passes _ _ _ hp ⟨fun hc => ?_, fun hc => ?_⟩ h
    · exact (has_errorClear.1 hc).2.1 rfl
    · exact (has_errorClear.1 hc).1 rfl
  · have := ((c18_error _ _ _ _ code message .assert).1 h).1
    cases this

/-- When the asynchronous process writes ok for the segment while the process waits, and no status file was there before that, the
result is success. -/
theorem c18_push_reports (seg : Str) (before : List Pass) (p : Pass) (after : List Pass) (spool : Spool) (warning : Option Str)
    (hw : ∀ w, warning = some w → Text w ∧ w ≠ []) (hs : ∀ e ∈ [okExt, errorExt], ¬ spool.has (seg ++ e))
    (hg : ¬ spool.has (globalName ++ errorExt)) (hb : ∀ q ∈ before, q.change = id)
    (hp : p.change = fun s => okWrite s seg warning) :
    pushAsync seg spool (before ++ p :: after) = .ok (warning.map fun w => (0, trim w)) := by
  unfold pushAsync
  suffices ∀ t f, pushWait seg spool t f (before ++ p :: after) = .ok (warning.map fun w => (0, trim w)) from this _ _
  induction before generalizing spool with
  | nil =>
    intro t f
    rw [List.nil_append, pushWait, hp]
    simp only
    rw [c18_ok_written spool seg t warning hw]
  | cons q before ih =>
    intro t f
    rw [List.cons_append, pushWait, hb q (.head _)]
    simp only [id]
    have h1 := hs okExt (.head _)
    have h2 := hs errorExt (.tail _ (.head _))
    rw [c18_wait spool seg t true h1 h2 hg]
    simp only
    have hb' : ∀ r ∈ before, r.change = id := fun r hr => hb r (.tail _ hr)
    split
    · refine ih _ ?_ ?_ hb' _ _
      · intro e he hc
        exact hs e he (has_errorClear.1 hc).2.2
      · intro hc
        exact hg (has_errorClear.1 hc).2.2
    · exact ih _ hs hg hb' _ _

/-! ## Examples and witnesses -/

/-- Ok and error for one segment: success. An error of a segment before the global one. -/
example : asyncStatus [([0x41] ++ errorExt, [0x32, 0x0a, 0x78]), ([0x41] ++ okExt, [])] [0x41] true true = .ok none ∧
    asyncStatus [([0x41] ++ errorExt, [0x32, 0x0a, 0x78]), (globalName ++ errorExt, [0x33, 0x0a, 0x79])] [0x41] true true =
      .thrown 2 [0x78] := ⟨by rfl, by rfl⟩

/-- The second pass reports an error that was written meanwhile, as hypothesis of `c18_push_success`. -/
example : pushAsync [0x41] [] [⟨id, true⟩, ⟨fun s => errorWrite s none 45 [0x78], true⟩] = .thrown 45 [0x78] := by
  rw [pushAsync, pushWait]
  simp only [id]
  rw [c18_wait _ _ _ _ (by rintro ⟨_, h⟩; cases h) (by rintro ⟨_, h⟩; cases h) (by rintro ⟨_, h⟩; cases h)]
  simp only
  rw [if_pos (by decide), pushWait]
  have := c18_error_written (errorClear [] [0x41]) [0x41] true true 45 [0x78] (by decide) (by decide) (by unfold Text; decide) (by decide)
    (by rintro ⟨_, h⟩; cases h) (fun _ => by rintro ⟨_, h⟩; cases h)
  rw [if_pos rfl] at this
  simp only
  rw [this]
  rfl

/-- An ok file with an empty warning cannot be read: the writer and the reader disagree (the asynchronous process never has an empty
warning). -/
theorem c18_empty_warning : asyncStatus (okWrite [] [0x41] (some [])) [0x41] true true = .fail .format := by rfl

/-- A status file that cannot be read is reported even when errors are not to be thrown. -/
theorem c18_unreadable : ∃ (spool : Spool) (seg : Str), asyncStatus spool seg false true = .fail .format ∧ spool.has (seg ++ errorExt) :=
  ⟨[([0x41] ++ errorExt, [0x32])], [0x41], by rfl, [0x32], by decide⟩

end Verif.Archive
