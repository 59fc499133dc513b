import Verif.Json.Text

/-!
# What the skipping reader accepts

Lemmas about `jsonReadSkip` on any text. A text that is accepted leaves a small automaton, which only tells strings from the rest, outside of
strings. Errors other than `jsonFormat` have one of two causes. Both are used to show that a wrong division of a line into key and value is
not accepted.
-/

namespace Verif.Json

/-- Modes of the automaton: outside of strings, behind a comma that takes the place of an opening quote, within a string, behind a backslash,
within the digits of `\u`, at the byte behind them. -/
inductive Mode where
  | out
  | trick
  | inn
  | esc
  | uni (n : Nat)
  | ext
  deriving DecidableEq

/-- One byte. Outside of strings there is no backslash and no equals sign. -/
def Next (m : Mode) (c : UInt8) (m' : Mode) : Prop :=
  match m with
  | .out => (c = 34 ∧ m' = .inn) ∨ (c = 44 ∧ m' = .trick) ∨ (c ≠ 34 ∧ c ≠ 92 ∧ c ≠ 61 ∧ m' = .out)
  | .trick => (c = 34 ∧ m' = .out) ∨ (isWs c = true ∧ m' = .trick)
  | .inn => (c = 34 ∧ m' = .out) ∨ (c = 92 ∧ m' = .esc) ∨ (c ≠ 34 ∧ c ≠ 92 ∧ m' = .inn)
  | .esc => (c = 117 ∧ m' = .uni 3) ∨ (c ≠ 117 ∧ m' = .inn)
  | .uni 0 => isDigit c = true ∧ m' = .ext
  | .uni (n + 1) => isDigit c = true ∧ m' = .uni n
  | .ext => m' = .inn

/-- A text. -/
def Run : Mode → Str → Mode → Prop
  | m, [], m' => m = m'
  | m, c :: s, m' => ∃ x, Next m c x ∧ Run x s m'

theorem Run.trans {a b c : Mode} {s t : Str} (h : Run a s b) (h' : Run b t c) : Run a (s ++ t) c := by
  induction s generalizing a with
  | nil => cases h; exact h'
  | cons x s ih => obtain ⟨y, h1, h2⟩ := h; exact ⟨y, h1, ih h2⟩

theorem run_append {a c : Mode} {s t : Str} (h : Run a (s ++ t) c) : ∃ b, Run a s b ∧ Run b t c := by
  induction s generalizing a with
  | nil => exact ⟨a, rfl, h⟩
  | cons x s ih => obtain ⟨y, h1, h2⟩ := h; obtain ⟨b, h3, h4⟩ := ih h2; exact ⟨b, ⟨y, h1, h3⟩, h4⟩

theorem run_out {s : Str} (h : ∀ c ∈ s, c ≠ 34 ∧ c ≠ 92 ∧ c ≠ 61) : Run .out s .out := by
  induction s with
  | nil => rfl
  | cons c s ih =>
    have := h c (by simp)
    exact ⟨.out, .inr (.inr ⟨this.1, this.2.1, this.2.2, rfl⟩), ih (fun x hx => h x (List.mem_cons_of_mem _ hx))⟩

theorem ws_plain {c : UInt8} (h : isWs c = true) : c ≠ 34 ∧ c ≠ 92 ∧ c ≠ 61 := by
  simp only [isWs, Bool.or_eq_true, beq_iff_eq] at h
  rcases h with ((rfl | rfl) | rfl) | rfl <;> decide

theorem digit_plain {c : UInt8} (h : isDigit c = true) : c ≠ 34 ∧ c ≠ 92 ∧ c ≠ 61 := by
  refine ⟨?_, ?_, ?_⟩ <;> (rintro rfl; revert h; decide)

theorem run_ws {s : Str} (h : ∀ c ∈ s, isWs c = true) : Run .out s .out := run_out fun c hc => ws_plain (h c hc)

/-- A text that ends within an escape. -/
def Pending (s : Str) : Prop := Run .out s .esc ∨ Run .out s .ext

/-- A text with 19 digits in a row. -/
def LongRun (s : Str) : Prop := ∃ a d b, s = a ++ d ++ b ∧ 19 ≤ d.length ∧ ∀ c ∈ d, isDigit c = true

theorem Pending.left {c s : Str} (h : Pending s) (hc : Run .out c .out) : Pending (c ++ s) := h.imp hc.trans hc.trans

theorem LongRun.left {s : Str} (c : Str) (h : LongRun s) : LongRun (c ++ s) := by
  obtain ⟨a, d, b, rfl, h1, h2⟩ := h
  exact ⟨c ++ a, d, b, by simp, h1, h2⟩

/-- The errors of the reader. -/
def Bad (s : Str) (e : Err) : Prop := e = .jsonFormat ∨ (e = .format ∧ LongRun s) ∨ (e = .ub ∧ Pending s)

theorem Bad.left {c s : Str} {e : Err} (h : Bad s e) (hc : Run .out c .out) : Bad (c ++ s) e :=
  h.imp id (Or.imp (fun x => ⟨x.1, x.2.left c⟩) (fun x => ⟨x.1, x.2.left hc⟩))

/-! ## Tokens -/

theorem skipWs_split (s : Str) : ∃ w, s = w ++ skipWs s ∧ ∀ c ∈ w, isWs c = true := by
  refine ⟨s.takeWhile isWs, (List.takeWhile_append_dropWhile).symm, ?_⟩
  induction s with
  | nil => simp
  | cons c s ih =>
    rw [List.takeWhile_cons]
    split
    · intro x hx
      rw [List.mem_cons] at hx
      rcases hx with rfl | hx
      · assumption
      · exact ih x hx
    · simp

/-- A token of a type, perhaps behind a comma. -/
def Head (t : Ty) (s : Str) : Prop :=
  (∃ c r, s = c :: r ∧ tyOf c = some t) ∨ ∃ w c r, s = 44 :: (w ++ c :: r) ∧ (∀ x ∈ w, isWs x = true) ∧ tyOf c = some t

theorem typeNext_cases (s : Str) : typeNext s = .error .jsonFormat ∨
    ∃ t w c r, typeNext s = .ok (t, c :: r) ∧ s = w ++ c :: r ∧ (∀ x ∈ w, isWs x = true) ∧ tyOf c = some t := by
  obtain ⟨w, hw, hws⟩ := skipWs_split s
  unfold typeNext
  cases hs : skipWs s with
  | nil => exact .inl rfl
  | cons c r =>
    rw [hs] at hw
    simp only
    cases ht : tyOf c with
    | none => exact .inl rfl
    | some t => exact .inr ⟨t, w, c, r, rfl, hw, hws, ht⟩

theorem typeNextIC_cases (s : Str) : typeNextIC s = .error .jsonFormat ∨
    ∃ t w s', typeNextIC s = .ok (t, s') ∧ s = w ++ s' ∧ (∀ x ∈ w, isWs x = true) ∧ Head t s' := by
  obtain ⟨w, hw, hws⟩ := skipWs_split s
  unfold typeNextIC
  split
  · rename_i r heq
    rw [heq] at hw
    rcases typeNext_cases r with h | ⟨t, w', c, r', h, e, hws', ht⟩
    · left; rw [h]; rfl
    · right
      refine ⟨t, w, 44 :: r, by rw [h]; rfl, hw, hws, .inr ⟨w', c, r', by rw [e], hws', ht⟩⟩
  · rename_i hne
    rcases typeNext_cases (skipWs s) with h | ⟨t, w', c, r', h, e, hws', ht⟩
    · left; exact h
    · right
      refine ⟨t, w ++ w', c :: r', h, by rw [List.append_assoc, ← e]; exact hw, ?_, .inl ⟨c, r', rfl, ht⟩⟩
      intro x hx
      rw [List.mem_append] at hx
      exact hx.elim (hws x) (hws' x)

theorem head_skipWs {t : Ty} {s : Str} (h : Head t s) : skipWs s = s := by
  rcases h with ⟨c, r, rfl, ht⟩ | ⟨w, c, r, rfl, _, _⟩
  · exact skipWs_cons (tyOf_facts ht).1 r
  · exact skipWs_cons (by decide) _

/-- Asking again gives the same answer. -/
theorem typeNextIC_head {t : Ty} {s : Str} (h : Head t s) : typeNextIC s = .ok (t, s) := by
  rcases h with ⟨c, r, rfl, ht⟩ | ⟨w, c, r, rfl, hw, ht⟩
  · exact typeNextIC_cons ht r (p := []) (.inl rfl)
  · unfold typeNextIC
    rw [skipWs_cons (by decide)]
    have : typeNext (w ++ c :: r) = .ok (t, c :: r) := by
      have e : skipWs (w ++ c :: r) = c :: r := by
        induction w with
        | nil => exact skipWs_cons (tyOf_facts ht).1 r
        | cons x w ih =>
          rw [List.cons_append, skipWs, List.dropWhile_cons, if_pos (hw x (by simp))]
          exact ih (fun y hy => hw y (List.mem_cons_of_mem _ hy))
      unfold typeNext
      rw [e]
      simp [ht]
    simp only [this, bind, Except.bind]

/-- The state behind the comma, when there is one and one is expected. -/
theorem push_cases {st : Rd} (h : Ready st) (ty : Ty) : push st ty false = .error .jsonFormat ∨
    ∃ c s', st.json = c ++ s' ∧ Run .out c .out ∧ Head ty s' ∧
      push st ty false = .ok (if ty.scalar then after st true s' else mid st (ty = .objectBegin) false false s') := by
  rcases typeNextIC_cases st.json with h0 | ⟨t, w, s', h0, e, hw, hh⟩
  · left
    unfold push
    rw [if_neg (by simp [h.1]), h0]; rfl
  · by_cases ht : t = ty
    · subst ht
      -- what remains behind the comma
      have hcomma : ∀ r, s' = 44 :: r → Head t (skipWs r) := by
        rintro r rfl
        rcases hh with ⟨c, r', hc, ht⟩ | ⟨w', c, r', hc, hw', ht⟩
        · simp only [List.cons.injEq] at hc; obtain ⟨rfl, rfl⟩ := hc
          exact absurd rfl (tyOf_facts ht).2
        · simp only [List.cons.injEq, true_and] at hc
          subst hc
          have : skipWs (w' ++ c :: r') = c :: r' := by
            clear e h0
            induction w' with
            | nil => exact skipWs_cons (tyOf_facts ht).1 r'
            | cons x w ih =>
              rw [List.cons_append, skipWs, List.dropWhile_cons, if_pos (hw' x (by simp))]
              exact ih (fun y hy => hw' y (List.mem_cons_of_mem _ hy))
          rw [this]
          exact .inl ⟨c, r', rfl, ht⟩
      obtain ⟨j, stack, key, complete⟩ := st
      obtain ⟨h1, h2⟩ := h
      simp only at h1 h0 e
      subst h1
      unfold push
      simp only [h0, bind, Except.bind]
      rcases stack with _ | _ | ⟨⟨o, f⟩, up⟩
      · right
        refine ⟨w, s', e, run_ws hw, hh, ?_⟩
        simp only at h2
        subst h2
        cases hs : t.scalar <;> simp [after, mid]
      · simp at h2
      · simp only at h2
        subst h2
        by_cases hc : f = true ∧ key = false
        · obtain ⟨rfl, rfl⟩ := hc
          cases s' with
          | nil => left; simp [pushKey, pushComma]
          | cons x r =>
            by_cases hx : x = 44
            · subst hx
              right
              obtain ⟨w2, hw2, hws2⟩ := skipWs_split r
              refine ⟨w ++ 44 :: w2, skipWs r, by rw [e]; conv_lhs => rw [hw2]
                                                  simp, ?_, hcomma r rfl, ?_⟩
              · exact (run_ws hw).trans ⟨.out, .inr (.inr ⟨by decide, by decide, by decide, rfl⟩), run_ws hws2⟩
              · cases hs : t.scalar <;> simp [after, mid, pushKey, pushComma]
            · left
              simp [pushKey, pushComma, hx]
        · right
          refine ⟨w, s', e, run_ws hw, hh, ?_⟩
          have hc' : ¬ (f = true ∧ (key = false ∨ false = true)) := by simpa using hc
          cases key <;> cases f <;> simp_all [pushKey, pushComma] <;>
            cases hs : t.scalar <;> simp [after, mid]
    · left
      unfold push
      rw [if_neg (by simp [h.1]), h0]
      simp [bind, Except.bind, ht]

theorem ws_skip {w : Str} (hw : ∀ x ∈ w, isWs x = true) {c : UInt8} (hc : isWs c = false) (r : Str) : skipWs (w ++ c :: r) = c :: r := by
  induction w with
  | nil => exact skipWs_cons hc r
  | cons x w ih =>
    rw [List.cons_append, skipWs, List.dropWhile_cons, if_pos (hw x (by simp))]
    exact ih (fun y hy => hw y (List.mem_cons_of_mem _ hy))

theorem head_behind {t : Ty} {r : Str} (hh : Head t (44 :: r)) : Head t (skipWs r) := by
  rcases hh with ⟨c, r', hc, ht⟩ | ⟨w', c, r', hc, hw', ht⟩
  · simp only [List.cons.injEq] at hc; obtain ⟨rfl, rfl⟩ := hc
    exact absurd rfl (tyOf_facts ht).2
  · simp only [List.cons.injEq, true_and] at hc
    subst hc
    rw [ws_skip hw' (tyOf_facts ht).1]
    exact .inl ⟨c, r', rfl, ht⟩

theorem push_key_cases (st : Rd) (h : Ready st) (f : Bool) (s : Str) :
    push (mid st true f false s) .string true = .error .jsonFormat ∨
    ∃ c s', s = c ++ s' ∧ Run .out c .out ∧ Head .string s' ∧
      push (mid st true f false s) .string true = .ok (mid st true true true s') := by
  obtain ⟨up, hm⟩ : ∃ up, ∀ f b s, mid st true f b s = ⟨s, some (⟨true, f⟩ :: up), b, false⟩ := by
    obtain ⟨j, stack, key, complete⟩ := st
    rcases stack with _ | _ | ⟨⟨o, f⟩, up⟩
    · exact ⟨[], fun _ _ _ => rfl⟩
    · simp [Ready] at h
    · exact ⟨⟨o, true⟩ :: up, fun _ _ _ => rfl⟩
  simp only [hm]
  rcases typeNextIC_cases s with h0 | ⟨t, w, s', h0, e, hw, hh⟩
  · left
    unfold push
    simp [h0, bind, Except.bind]
  · by_cases ht : t = .string
    · subst ht
      unfold push
      simp only [h0, bind, Except.bind]
      cases f with
      | false =>
        right
        exact ⟨w, s', e, run_ws hw, hh, by simp [pushKey, pushComma, Ty.scalar]⟩
      | true =>
        cases s' with
        | nil => left; simp [pushKey, pushComma]
        | cons x r =>
          by_cases hx : x = 44
          · subst hx
            right
            obtain ⟨w2, hw2, hws2⟩ := skipWs_split r
            refine ⟨w ++ 44 :: w2, skipWs r, by rw [e]; conv_lhs => rw [hw2]
                                                simp, ?_, head_behind hh, ?_⟩
            · exact (run_ws hw).trans ⟨.out, .inr (.inr ⟨by decide, by decide, by decide, rfl⟩), run_ws hws2⟩
            · simp [pushKey, pushComma, Ty.scalar]
          · left
            simp [pushKey, pushComma, hx]
    · left
      unfold push
      simp [h0, bind, Except.bind, ht]

/-! ## Values -/

/-- The step of `skipStrBody` for a byte. -/
def strStep (n : Nat) (c : UInt8) (r : Str) : Res Str :=
  if c = 34 then .ok r
  else if c = 92 then
    match r with
    | [] => .error .ub
    | e :: r =>
      if e = 117 then
        match r with
        | d1 :: d2 :: d3 :: d4 :: r =>
          if isDigit d1 && isDigit d2 && isDigit d3 && isDigit d4 then
            match r with
            | [] => .error .ub
            | _ :: r => skipStrBody n r
          else .error .jsonFormat
        | _ => .error .jsonFormat
      else skipStrBody n r
  else skipStrBody n r

theorem takeWhile_mem {p : UInt8 → Bool} {s : Str} : ∀ c ∈ s.takeWhile p, p c = true := by
  induction s with
  | nil => simp
  | cons c s ih =>
    rw [List.takeWhile_cons]
    split
    · intro x hx
      rw [List.mem_cons] at hx
      rcases hx with rfl | hx
      · assumption
      · exact ih x hx
    · simp

theorem skipStrBody_cases : ∀ (n : Nat) (s : Str), s.length < n →
    (∃ c r, s = c ++ r ∧ Run .inn c .out ∧ skipStrBody n s = .ok r) ∨ skipStrBody n s = .error .jsonFormat ∨
    (skipStrBody n s = .error .ub ∧ (Run .inn s .esc ∨ Run .inn s .ext))
  | 0, _, h => by omega
  | n + 1, [], _ => .inr (.inl rfl)
  | n + 1, c :: r, h => by
    have e0 : skipStrBody (n + 1) (c :: r) = strStep n c r := by rw [skipStrBody.eq_def]; rfl
    rw [e0]
    unfold strStep
    by_cases h34 : c = 34
    · subst h34
      exact .inl ⟨[34], r, rfl, ⟨.out, .inl ⟨rfl, rfl⟩, rfl⟩, by simp⟩
    rw [if_neg h34]
    have lift : ∀ (p r' : Str), c :: r = p ++ r' → p ≠ [] → Run .inn p .inn →
        (∃ c' r'', c :: r = c' ++ r'' ∧ Run .inn c' .out ∧ skipStrBody n r' = .ok r'') ∨ skipStrBody n r' = .error .jsonFormat ∨
        (skipStrBody n r' = .error .ub ∧ (Run .inn (c :: r) .esc ∨ Run .inn (c :: r) .ext)) := by
      intro p r' e hp hrun
      have hl : r'.length < n := by
        have := congrArg List.length e
        have : 0 < p.length := List.length_pos_iff.2 hp
        simp only [List.length_cons, List.length_append] at *; omega
      rcases skipStrBody_cases n r' hl with ⟨c', r'', e', h1, h2⟩ | h1 | ⟨h1, h2⟩
      · exact .inl ⟨p ++ c', r'', by rw [e, e']; simp, hrun.trans h1, h2⟩
      · exact .inr (.inl h1)
      · exact .inr (.inr ⟨h1, by rw [e]; exact h2.imp hrun.trans hrun.trans⟩)
    by_cases h92 : c = 92
    · subst h92
      rw [if_pos rfl]
      cases r with
      | nil => exact .inr (.inr ⟨rfl, .inl ⟨.esc, .inr (.inl ⟨rfl, rfl⟩), rfl⟩⟩)
      | cons e r =>
        by_cases he : e = 117
        · subst he
          simp only [if_true]
          split
          · rename_i d1 d2 d3 d4 r
            by_cases hd : (isDigit d1 && isDigit d2 && isDigit d3 && isDigit d4) = true
            · rw [if_pos hd]
              simp only [Bool.and_eq_true] at hd
              obtain ⟨⟨⟨hd1, hd2⟩, hd3⟩, hd4⟩ := hd
              have h5 : Run .inn [92, 117, d1, d2, d3, d4] .ext :=
                ⟨.esc, .inr (.inl ⟨rfl, rfl⟩), .uni 3, .inl ⟨rfl, rfl⟩, .uni 2, ⟨hd1, rfl⟩, .uni 1, ⟨hd2, rfl⟩, .uni 0, ⟨hd3, rfl⟩,
                  .ext, ⟨hd4, rfl⟩, rfl⟩
              cases r with
              | nil => exact .inr (.inr ⟨rfl, .inr h5⟩)
              | cons x r =>
                exact lift [92, 117, d1, d2, d3, d4, x] r rfl (by simp) (h5.trans (t := [x]) ⟨.inn, rfl, rfl⟩)
            · rw [if_neg hd]; exact .inr (.inl rfl)
          · exact .inr (.inl rfl)
        · simp only [if_neg he]
          exact lift [92, e] r rfl (by simp) ⟨.esc, .inr (.inl ⟨rfl, rfl⟩), .inn, .inr ⟨he, rfl⟩, rfl⟩
    · rw [if_neg h92]
      exact lift [c] r rfl (by simp) ⟨.inn, .inr (.inr ⟨h34, h92, rfl⟩), rfl⟩

theorem tyOf_string {c : UInt8} (h : tyOf c = some .string) : c = 34 := by
  unfold tyOf at h
  split at h
  · assumption
  · repeat' split at h
    all_goals cases h

theorem skipStr_ws {w : Str} (hw : ∀ x ∈ w, isWs x = true) (r : Str) : ∀ n, w.length < n → skipStrBody n (w ++ 34 :: r) = .ok r := by
  induction w with
  | nil => intro n hn; cases n with
           | zero => simp at hn
           | succ n => simp [skipStrBody]
  | cons x w ih =>
    intro n hn
    cases n with
    | zero => omega
    | succ n =>
      have := ws_plain (hw x (by simp))
      simp only [List.cons_append, skipStrBody, this.1, this.2.1, if_false]
      exact ih (fun y hy => hw y (List.mem_cons_of_mem _ hy)) n (by simpa using hn)

/-- The string is skipped, or there is an error of the reader. -/
theorem readSkipStr_cases (st : Rd) (h : Head .string st.json) :
    (∃ c r, st.json = c ++ r ∧ Run .out c .out ∧ c ≠ [] ∧ readSkipStr st = .ok { st with json := r }) ∨
    (∃ e, readSkipStr st = .error e ∧ Bad st.json e) := by
  rcases h with ⟨c, r, e, ht⟩ | ⟨w, c, r, e, hw, ht⟩
  · have := tyOf_string ht
    subst this
    simp only [readSkipStr, skip1, e, bind, Except.bind]
    rcases skipStrBody_cases (r.length + 1) r (by omega) with ⟨c', r', e', h1, h2⟩ | h1 | ⟨h1, h2⟩
    · left
      refine ⟨34 :: c', r', by rw [e']; rfl, ⟨.inn, .inl ⟨rfl, rfl⟩, h1⟩, by simp, by rw [h2]⟩
    · right
      exact ⟨.jsonFormat, by rw [h1], .inl rfl⟩
    · right
      refine ⟨.ub, by rw [h1], .inr (.inr ⟨rfl, ?_⟩)⟩
      exact h2.imp (fun x => ⟨.inn, .inl ⟨rfl, rfl⟩, x⟩) (fun x => ⟨.inn, .inl ⟨rfl, rfl⟩, x⟩)
  · have := tyOf_string ht
    subst this
    left
    refine ⟨44 :: (w ++ [34]), r, by rw [e]; simp, ?_, by simp, ?_⟩
    · refine ⟨.trick, .inr (.inl ⟨rfl, rfl⟩), ?_⟩
      have : Run .trick w .trick := by
        clear e
        induction w with
        | nil => rfl
        | cons x w ih => exact ⟨.trick, .inr ⟨hw x (by simp), rfl⟩, ih (fun y hy => hw y (List.mem_cons_of_mem _ hy))⟩
      exact this.trans ⟨.out, .inl ⟨rfl, rfl⟩, rfl⟩
    · simp only [readSkipStr, skip1, e, bind, Except.bind]
      rw [skipStr_ws hw]
      simp only [List.length_append]; omega

/-- Fewer than 19 digits are a number that fits. -/
theorem small_number {d : Str} (hne : d ≠ []) (hd : ∀ c ∈ d, isDigit c = true) (hl : d.length < 19) :
    ∃ v, Num.Numeral 10 d v ∧ v < 10 ^ 18 := by
  have key : ∀ c : UInt8, isDigit c = true → ∃ k, k < 10 ∧ Num.digitOf 10 c = some k := by
    have : ∀ n : Fin 256, isDigit (UInt8.ofNat n) = true → ∃ k, k < 10 ∧ Num.digitOf 10 (UInt8.ofNat n) = some k := by decide +kernel
    intro c hc
    have h1 := this ⟨c.toNat, c.toNat_lt⟩
    simp only [UInt8.ofNat_toNat] at h1
    exact h1 hc
  have h2 : ∀ d : Str, (∀ c ∈ d, isDigit c = true) → ∃ ds : List Nat, d.map (Num.digitOf 10) = ds.map some ∧ ds.length = d.length ∧
      Num.valueOf 10 ds < 10 ^ d.length := by
    intro d
    induction d with
    | nil => intro _; exact ⟨[], rfl, rfl, by simp [Num.valueOf]⟩
    | cons c d ih =>
      intro hd
      obtain ⟨ds, e, hlen, hv⟩ := ih (fun x hx => hd x (List.mem_cons_of_mem _ hx))
      obtain ⟨k, hk, hc⟩ := key c (hd c (by simp))
      refine ⟨k :: ds, by simp [e, hc], by simp [hlen], ?_⟩
      simp only [Num.valueOf, List.length_cons, Nat.pow_succ, hlen]
      have : k * 10 ^ d.length ≤ 9 * 10 ^ d.length := Nat.mul_le_mul_right _ (by omega)
      omega
  obtain ⟨ds, e, hlen, hv⟩ := h2 d hd
  refine ⟨_, ⟨hne, ds, e, rfl⟩, Nat.lt_of_lt_of_le hv (Nat.pow_le_pow_right (by omega) (by omega))⟩

theorem negative_number {d : Str} {v : Nat} (h : Num.Numeral 10 d v) (hv : v < 2 ^ 63) : Num.toInt64Base 10 (45 :: d) = .ok (-(v : Int)) := by
  obtain ⟨hne, ds, hds, rfl⟩ := h
  have hstr : Num.strto 10 (45 :: d) = some (true, Num.valueOf 10 ds, []) := by
    unfold Num.strto
    have hdrop : List.dropWhile Num.isSpace ((45 : UInt8) :: d) = 45 :: d := by rw [List.dropWhile_cons_of_neg]; decide
    rw [hdrop]
    have hm : Num.splitSign ((45 : UInt8) :: d) = (true, d) := rfl
    rw [hm]
    simp only
    rw [Num.skipPrefix_numeral 10 _ ds hds]
    have hp := Num.parseDigits_numeral 10 _ ds 0 hds
    cases d with
    | nil => exact absurd rfl hne
    | cons c s =>
      cases ds with
      | nil => simp at hds
      | cons x ds =>
        simp only [List.map_cons, List.cons.injEq] at hds
        simp [hds.1, hp]
  unfold Num.toInt64Base
  rw [hstr]
  simp only
  rw [if_neg (by simp; omega), if_neg (by simp; decide)]
  simp

theorem readNumber_cases (s : Str) : (∃ n c r, s = c ++ r ∧ Run .out c .out ∧ c ≠ [] ∧ readNumber s = .ok (n, r)) ∨
    (∃ e, readNumber s = .error e ∧ Bad s e) := by
  unfold readNumber
  simp only []
  generalize hb : (if s.head? = some 45 then s.tail else s) = body
  have hs : s = (if s.head? = some 45 then [45] else []) ++ body := by
    rw [← hb]
    cases s with
    | nil => simp
    | cons c s => by_cases hc : c = 45 <;> simp [hc]
  have hd : ∀ c ∈ body.takeWhile isDigit, isDigit c = true := takeWhile_mem
  have hbody : body = body.takeWhile isDigit ++ body.dropWhile isDigit := List.takeWhile_append_dropWhile.symm
  generalize body.takeWhile isDigit = d at hd hbody ⊢
  generalize body.dropWhile isDigit = r at hbody ⊢
  by_cases hne : d = []
  · rw [if_pos hne]; exact .inr ⟨_, rfl, .inl rfl⟩
  rw [if_neg hne]
  by_cases hl : d.length ≥ 64
  · rw [if_pos hl]; exact .inr ⟨_, rfl, .inl rfl⟩
  rw [if_neg hl]
  obtain ⟨pre, hpre⟩ : ∃ pre : Str, pre = if s.head? = some 45 then [45] else [] := ⟨_, rfl⟩
  rw [← hpre] at hs
  have hall : s = (pre ++ d) ++ r := by rw [hs, hbody, List.append_assoc]
  have hlong : 19 ≤ d.length → LongRun s := fun h => ⟨pre, d, r, hall, h, hd⟩
  have hrun : Run .out (pre ++ d) .out := by
    apply run_out
    intro c hc
    rw [List.mem_append] at hc
    rcases hc with hc | hc
    · rw [hpre] at hc
      split at hc
      · rw [List.mem_singleton] at hc; subst hc; decide
      · simp at hc
    · exact digit_plain (hd c hc)
  by_cases hsig : s.head? = some 45
  · rw [if_pos hsig]
    by_cases h19 : d.length < 19
    · obtain ⟨v, hv, hlt⟩ := small_number hne hd h19
      left
      refine ⟨-(v : Int), pre ++ d, r, hall, hrun, by simp [hne], ?_⟩
      rw [negative_number hv (by omega)]; rfl
    · cases hx : Num.toInt64Base 10 (45 :: d) with
      | ok n =>
        left
        exact ⟨n, pre ++ d, r, hall, hrun, by simp [hne], rfl⟩
      | error e =>
        right
        refine ⟨e, rfl, .inr (.inl ⟨?_, hlong (by omega)⟩)⟩
        unfold Num.toInt64Base at hx
        split at hx
        · cases hx; rfl
        · split at hx
          · cases hx; rfl
          · split at hx <;> cases hx; rfl
  · rw [if_neg hsig]
    by_cases h19 : d.length < 19
    · obtain ⟨v, hv, hlt⟩ := small_number hne hd h19
      left
      refine ⟨v, pre ++ d, r, hall, hrun, by simp [hne], ?_⟩
      rw [(Num.c51_numeral 10 d v hv).1, if_pos (by omega)]; rfl
    · cases hx : Num.toUInt64Base 10 d with
      | ok n =>
        left
        exact ⟨n, pre ++ d, r, hall, hrun, by simp [hne], rfl⟩
      | error e =>
        right
        refine ⟨e, rfl, .inr (.inl ⟨?_, hlong (by omega)⟩)⟩
        unfold Num.toUInt64Base at hx
        simp only [bind, Except.bind] at hx
        split at hx
        · rename_i heq
          unfold Num.uint64Internal at heq
          split at heq
          · cases heq; cases hx; rfl
          · split at heq
            · cases heq; cases hx; rfl
            · split at heq <;> cases heq; cases hx; rfl
        · split at hx <;> cases hx; rfl

theorem after_json_irrel {st : Rd} (h : Ready st) (s t : Str) (sc : Bool) : after { st with json := s } sc t = after st sc t := by
  obtain ⟨j, stack, key, complete⟩ := st
  rcases stack with _ | _ | ⟨⟨o, f⟩, up⟩
  · rfl
  · simp [Ready] at h
  · rfl

theorem mid_json_irrel {st : Rd} (h : Ready st) (s t : Str) (o f b : Bool) : mid { st with json := s } o f b t = mid st o f b t := by
  obtain ⟨j, stack, key, complete⟩ := st
  rcases stack with _ | _ | ⟨⟨o, f⟩, up⟩
  · rfl
  · simp [Ready] at h
  · rfl

theorem ready_set {st : Rd} (h : Ready st) (s : Str) : Ready { st with json := s } := h

theorem prefix_drop {p s : Str} (h : p.isPrefixOf s = true) : s = p ++ s.drop p.length := by
  rw [List.isPrefixOf_iff_prefix] at h
  obtain ⟨t, rfl⟩ := h
  simp

theorem pop_cases (st : Rd) (h : Ready st) (object f : Bool) (s : Str) :
    (∃ c r, s = c ++ r ∧ Run .out c .out ∧ c ≠ [] ∧
      (if object then readObjectEnd (mid st object f false s) else readArrayEnd (mid st object f false s)) = .ok (after st false r)) ∨
    (if object then readObjectEnd (mid st object f false s) else readArrayEnd (mid st object f false s)) = .error .jsonFormat := by
  obtain ⟨up, hm, ha⟩ : ∃ up, (∀ o f b s, mid st o f b s = ⟨s, some (⟨o, f⟩ :: up), b, false⟩) ∧
      ∀ r, after st false r = ⟨r, some up, false, up.isEmpty⟩ := by
    obtain ⟨j, stack, key, complete⟩ := st
    rcases stack with _ | _ | ⟨⟨o, f⟩, up⟩
    · exact ⟨[], fun _ _ _ _ => rfl, fun _ => rfl⟩
    · simp [Ready] at h
    · exact ⟨⟨o, true⟩ :: up, fun _ _ _ _ => rfl, fun _ => rfl⟩
  simp only [hm, ha]
  rcases typeNext_cases s with h0 | ⟨t, w, c, r, h0, e, hw, ht⟩
  · right
    cases object <;> simp [readObjectEnd, readArrayEnd, pop, h0, bind, Except.bind]
  · by_cases hc : t = if object then .objectEnd else .arrayEnd
    · left
      have hc34 : c ≠ 34 ∧ c ≠ 92 ∧ c ≠ 61 := by
        refine ⟨?_, ?_, ?_⟩ <;> (rintro rfl; rw [hc] at ht; revert ht; cases object <;> decide)
      refine ⟨w ++ [c], r, by rw [e]; simp, (run_ws hw).trans (run_out (by simpa using hc34)), by simp, ?_⟩
      cases object <;> simp_all [readObjectEnd, readArrayEnd, pop, bind, Except.bind, skip1]
    · right
      cases object <;> simp_all [readObjectEnd, readArrayEnd, pop, bind, Except.bind]

theorem skip_cases (n : Nat) :
    (∀ st, Ready st → 2 * st.json.length + 1 ≤ n →
      (∃ c r sc, st.json = c ++ r ∧ Run .out c .out ∧ c ≠ [] ∧ readSkip n st = .ok (after st sc r)) ∨
      (∃ e, readSkip n st = .error e ∧ Bad st.json e)) ∧
    (∀ st f s, Ready st → 2 * s.length + 2 ≤ n →
      (∃ c r, s = c ++ r ∧ Run .out c .out ∧ c ≠ [] ∧ readSkipItems n (mid st false f false s) = .ok (after st false r)) ∨
      (∃ e, readSkipItems n (mid st false f false s) = .error e ∧ Bad s e)) ∧
    (∀ st f s, Ready st → 2 * s.length + 2 ≤ n →
      (∃ c r, s = c ++ r ∧ Run .out c .out ∧ c ≠ [] ∧ readSkipFields n (mid st true f false s) = .ok (after st false r)) ∨
      (∃ e, readSkipFields n (mid st true f false s) = .error e ∧ Bad s e)) := by
  induction n with
  | zero => exact ⟨fun _ _ h => by omega, fun _ _ _ _ h => by omega, fun _ _ _ _ h => by omega⟩
  | succ n ih =>
    obtain ⟨ih1, ih2, ih3⟩ := ih
    refine ⟨?_, ?_, ?_⟩
    · intro st h hl
      rcases typeNextIC_cases st.json with h0 | ⟨t, w, s', h0, e, hw, hh⟩
      · right
        exact ⟨.jsonFormat, by rw [readSkip, h0]; rfl, .inl rfl⟩
      have hst := ready_set h s'
      have hrw := run_ws hw
      have hlen : s'.length ≤ st.json.length := by rw [e]; simp
      -- results of a push on the state without white space
      have fin : ∀ {x : Res Rd}, readSkip (n + 1) st = x →
          ((∃ c r sc, s' = c ++ r ∧ Run .out c .out ∧ c ≠ [] ∧ x = .ok (after st sc r)) ∨ (∃ e, x = .error e ∧ Bad s' e)) →
          (∃ c r sc, st.json = c ++ r ∧ Run .out c .out ∧ c ≠ [] ∧ readSkip (n + 1) st = .ok (after st sc r)) ∨
          (∃ e, readSkip (n + 1) st = .error e ∧ Bad st.json e) := by
        rintro x hx (⟨c, r, sc, e1, h1, h2, h3⟩ | ⟨e1, h1, h2⟩)
        · exact .inl ⟨w ++ c, r, sc, by rw [e, e1]; simp, hrw.trans h1, by simp [h2], by rw [hx, h3]⟩
        · exact .inr ⟨e1, by rw [hx, h1], by rw [e]; exact h2.left hrw⟩
      have scalar : ∀ (ty : Ty) (k : Rd → Res Rd), ty.scalar = true →
          (∀ s, Head ty s → (∃ c r, s = c ++ r ∧ Run .out c .out ∧ c ≠ [] ∧ k (after st true s) = .ok (after st true r)) ∨
            (∃ e, k (after st true s) = .error e ∧ Bad s e)) →
          (∃ c r sc, s' = c ++ r ∧ Run .out c .out ∧ c ≠ [] ∧
            (do k (← push { st with json := s' } ty false) : Res Rd) = .ok (after st sc r)) ∨
          (∃ e, (do k (← push { st with json := s' } ty false) : Res Rd) = .error e ∧ Bad s' e) := by
        intro ty k hsc hk
        rcases push_cases hst ty with h1 | ⟨c, s2, e2, hr2, hh2, h1⟩
        · right; exact ⟨.jsonFormat, by rw [h1]; rfl, .inl rfl⟩
        · rw [h1, hsc]
          simp only [if_true, bind, Except.bind, after_json_irrel h]
          simp only at e2
          rcases hk s2 hh2 with ⟨c', r, e3, h3, h4, h5⟩ | ⟨e3, h3, h4⟩
          · exact .inl ⟨c ++ c', r, true, by rw [e2, e3]; simp, hr2.trans h3, by simp [h4], h5⟩
          · exact .inr ⟨e3, h3, by rw [e2]; exact h4.left hr2⟩
      have containr : ∀ (ty : Ty) (o : Bool) (k : Rd → Res Rd), ty.scalar = false → decide (ty = .objectBegin) = o →
          (∀ s, 2 * s.length + 2 ≤ n → (∃ c r, s = c ++ r ∧ Run .out c .out ∧ c ≠ [] ∧ k (mid st o false false s) = .ok (after st false r)) ∨
            (∃ e, k (mid st o false false s) = .error e ∧ Bad s e)) →
          (∃ c r sc, s' = c ++ r ∧ Run .out c .out ∧ c ≠ [] ∧
            (do k (← skip1 (← push { st with json := s' } ty false)) : Res Rd) = .ok (after st sc r)) ∨
          (∃ e, (do k (← skip1 (← push { st with json := s' } ty false)) : Res Rd) = .error e ∧ Bad s' e) := by
        intro ty o k hsc ho hk
        rcases push_cases hst ty with h1 | ⟨c, s2, e2, hr2, hh2, h1⟩
        · right; exact ⟨.jsonFormat, by rw [h1]; rfl, .inl rfl⟩
        · rw [h1, hsc, ho]
          simp only [Bool.false_eq_true, if_false, bind, Except.bind, mid_json_irrel h]
          simp only at e2
          obtain ⟨x, r2, hx, hx2⟩ : ∃ x r2, s2 = x :: r2 ∧ x ≠ 34 ∧ x ≠ 92 ∧ x ≠ 61 := by
            rcases hh2 with ⟨x, r2, hx, ht⟩ | ⟨w', x, r2, hx, _, _⟩
            · refine ⟨x, r2, hx, ?_, ?_, ?_⟩
              · rintro rfl; rw [show tyOf 34 = some .string by decide] at ht; cases ht; cases hsc
              · rintro rfl; rw [show tyOf 92 = none by decide] at ht; cases ht
              · rintro rfl; rw [show tyOf 61 = none by decide] at ht; cases ht
            · exact ⟨44, _, hx, by decide⟩
          subst hx
          simp only [skip1, mid_json _ h, mid_set _ h]
          have hl2 : 2 * r2.length + 2 ≤ n := by
            have := congrArg List.length e2
            simp only [List.length_append, List.length_cons] at this; omega
          rcases hk r2 hl2 with ⟨c', r, e3, h3, h4, h5⟩ | ⟨e3, h3, h4⟩
          · exact .inl ⟨c ++ x :: c', r, false, by rw [e2, e3]; simp,
              hr2.trans ⟨.out, .inr (.inr ⟨hx2.1, hx2.2.1, hx2.2.2, rfl⟩), h3⟩, by simp, h5⟩
          · refine .inr ⟨e3, h3, ?_⟩
            rw [e2]
            have : Bad ([x] ++ r2) e3 := h4.left (run_out (by simpa using hx2))
            exact this.left hr2
      cases t with
      | bool =>
        refine fin (x := (do let (_, st) ← readBool { st with json := s' }; .ok st)) (by rw [readSkip, h0]; rfl) ?_
        have := scalar .bool (fun st => if trueZ.isPrefixOf st.json then .ok { st with json := st.json.drop 4 }
          else if falseZ.isPrefixOf st.json then .ok { st with json := st.json.drop 5 } else .error .jsonFormat) rfl (by
            intro s hs
            simp only [after_json _ h, after_set _ h]
            by_cases c1 : trueZ.isPrefixOf s = true
            · left
              exact ⟨trueZ, s.drop 4, prefix_drop c1, run_out (by decide), by decide, by rw [if_pos c1]⟩
            · rw [if_neg c1]
              by_cases c2 : falseZ.isPrefixOf s = true
              · left
                exact ⟨falseZ, s.drop 5, prefix_drop c2, run_out (by decide), by decide, by rw [if_pos c2]⟩
              · right; exact ⟨.jsonFormat, by rw [if_neg c2], .inl rfl⟩)
        have e3 : (do let (_, st) ← readBool { st with json := s' }; .ok st : Res Rd) =
            (do (fun st : Rd => if trueZ.isPrefixOf st.json then .ok { st with json := st.json.drop 4 }
          else if falseZ.isPrefixOf st.json then .ok { st with json := st.json.drop 5 } else .error .jsonFormat) (← push { st with json := s' } .bool false) : Res Rd) := by
          unfold readBool
          cases push { st with json := s' } .bool false with
          | error e => rfl
          | ok a =>
            simp only [bind, Except.bind]
            by_cases c1 : trueZ.isPrefixOf a.json = true
            · simp only [c1, if_true]
            · by_cases c2 : falseZ.isPrefixOf a.json = true
              · simp only [c1, c2, if_true, if_false, Bool.false_eq_true]
              · simp only [c1, c2, if_false, Bool.false_eq_true]
        rw [e3]; exact this
      | null =>
        refine fin (x := readNull { st with json := s' }) (by rw [readSkip, h0]; rfl) ?_
        exact scalar .null (fun st => if nullZ.isPrefixOf st.json then .ok { st with json := st.json.drop 4 } else .error .jsonFormat) rfl (by
            intro s hs
            simp only [after_json _ h, after_set _ h]
            by_cases c1 : nullZ.isPrefixOf s = true
            · left
              exact ⟨nullZ, s.drop 4, prefix_drop c1, run_out (by decide), by decide, by rw [if_pos c1]⟩
            · right; exact ⟨.jsonFormat, by rw [if_neg c1], .inl rfl⟩)
      | number =>
        refine fin (x := (do
          let st ← push { st with json := s' } .number false
          let (_, s) ← readNumber st.json
          .ok { st with json := s })) (by rw [readSkip, h0]; rfl) ?_
        exact scalar .number (fun st => do
          let (_, s) ← readNumber st.json
          .ok { st with json := s }) rfl (by
            intro s hs
            simp only [after_json _ h]
            rcases readNumber_cases s with ⟨k, c, r, e2, h2, h3, h4⟩ | ⟨e2, h2, h3⟩
            · left; exact ⟨c, r, e2, h2, h3, by rw [h4]; simp only [bind, Except.bind, after_set _ h]⟩
            · right; exact ⟨e2, by rw [h2]; rfl, h3⟩)
      | string =>
        refine fin (x := (do readSkipStr (← push { st with json := s' } .string false))) (by rw [readSkip, h0]; rfl) ?_
        exact scalar .string readSkipStr rfl (by
            intro s hs
            rcases readSkipStr_cases (after st true s) (by rw [after_json _ h]; exact hs) with ⟨c, r, e2, h2, h3, h4⟩ | ⟨e2, h2, h3⟩
            · rw [after_json _ h] at e2
              rw [after_set _ h] at h4
              exact .inl ⟨c, r, e2, h2, h3, h4⟩
            · rw [after_json _ h] at h3
              exact .inr ⟨e2, h2, h3⟩)
      | arrayBegin =>
        refine fin (x := (do readSkipItems n (← skip1 (← push { st with json := s' } .arrayBegin false)))) ?_
          (containr .arrayBegin false (readSkipItems n) rfl rfl (fun s hs => ih2 st false s h hs))
        rw [readSkip, h0]; simp only [readArrayBegin, bind, Except.bind]
        cases push { st with json := s' } .arrayBegin false <;> rfl
      | arrayEnd =>
        refine fin (x := (do readSkipFields n (← skip1 (← push { st with json := s' } .objectBegin false)))) ?_
          (containr .objectBegin true (readSkipFields n) rfl rfl (fun s hs => ih3 st false s h hs))
        rw [readSkip, h0]; simp only [readObjectBegin, bind, Except.bind]
        cases push { st with json := s' } .objectBegin false <;> rfl
      | objectBegin =>
        refine fin (x := (do readSkipFields n (← skip1 (← push { st with json := s' } .objectBegin false)))) ?_
          (containr .objectBegin true (readSkipFields n) rfl rfl (fun s hs => ih3 st false s h hs))
        rw [readSkip, h0]; simp only [readObjectBegin, bind, Except.bind]
        cases push { st with json := s' } .objectBegin false <;> rfl
      | objectEnd =>
        refine fin (x := (do readSkipFields n (← skip1 (← push { st with json := s' } .objectBegin false)))) ?_
          (containr .objectBegin true (readSkipFields n) rfl rfl (fun s hs => ih3 st false s h hs))
        rw [readSkip, h0]; simp only [readObjectBegin, bind, Except.bind]
        cases push { st with json := s' } .objectBegin false <;> rfl
    · intro st f s h hl
      rcases typeNextIC_cases s with h0 | ⟨t, w, s', h0, e, hw, hh⟩
      · right
        exact ⟨.jsonFormat, by rw [readSkipItems, mid_json _ h, h0]; rfl, .inl rfl⟩
      have hrw := run_ws hw
      have hlen : s'.length ≤ s.length := by rw [e]; simp
      by_cases ht : t = .arrayEnd
      · have e1 : readSkipItems (n + 1) (mid st false f false s) = readArrayEnd (mid st false f false s') := by
          rw [readSkipItems, mid_json _ h, h0]
          simp only [bind, Except.bind, ht, if_true, mid_set _ h]
        rw [e1]
        rcases pop_cases st h false f s' with ⟨c, r, e2, h2, h3, h4⟩ | h4
        · left; exact ⟨w ++ c, r, by rw [e, e2]; simp, hrw.trans h2, by simp [h3], h4⟩
        · right; exact ⟨.jsonFormat, h4, .inl rfl⟩
      · have e1 : readSkipItems (n + 1) (mid st false f false s) =
            (do readSkipItems n (← readSkip n (mid st false f false s'))) := by
          rw [readSkipItems, mid_json _ h, h0]
          simp only [bind, Except.bind, ht, if_false, mid_set _ h]
        rw [e1]
        rcases ih1 (mid st false f false s') (mid_ready _ h _ _ _) (by rw [mid_json _ h]; omega) with ⟨c, r, sc, e2, h2, h3, h4⟩ | ⟨e2, h2, h3⟩
        · rw [mid_json _ h] at e2
          rw [h4, mid_after _ h]
          simp only [bind, Except.bind]
          have hl2 : r.length < s'.length := by
            rw [e2]; have := List.length_pos_iff.2 h3; simp only [List.length_append]; omega
          rcases ih2 st true r h (by omega) with ⟨c', r', e5, h5, h6, h7⟩ | ⟨e5, h5, h6⟩
          · left; exact ⟨w ++ (c ++ c'), r', by rw [e, e2, e5]; simp, hrw.trans (h2.trans h5), by simp [h6], h7⟩
          · right; exact ⟨e5, h5, by rw [e, e2]; exact (h6.left h2).left hrw⟩
        · rw [mid_json _ h] at h3
          right; exact ⟨e2, by rw [h2]; rfl, by rw [e]; exact h3.left hrw⟩
    · intro st f s h hl
      rcases typeNextIC_cases s with h0 | ⟨t, w, s', h0, e, hw, hh⟩
      · right
        exact ⟨.jsonFormat, by rw [readSkipFields, mid_json _ h, h0]; rfl, .inl rfl⟩
      have hrw := run_ws hw
      have hlen : s'.length ≤ s.length := by rw [e]; simp
      by_cases ht : t = .objectEnd
      · have e1 : readSkipFields (n + 1) (mid st true f false s) = readObjectEnd (mid st true f false s') := by
          rw [readSkipFields, mid_json _ h, h0]
          simp only [bind, Except.bind, ht, if_true, mid_set _ h]
        rw [e1]
        rcases pop_cases st h true f s' with ⟨c, r, e2, h2, h3, h4⟩ | h4
        · left; exact ⟨w ++ c, r, by rw [e, e2]; simp, hrw.trans h2, by simp [h3], h4⟩
        · right; exact ⟨.jsonFormat, h4, .inl rfl⟩
      · have e1 : readSkipFields (n + 1) (mid st true f false s) =
            (do
              let st ← readSkipStr (← push (mid st true f false s') .string true)
              let s ← colon st.json
              let st ← readSkip n { st with json := s }
              readSkipFields n st) := by
          rw [readSkipFields, mid_json _ h, h0]
          simp only [bind, Except.bind, ht, if_false, mid_set _ h]
        rw [e1]
        rcases push_key_cases st h f s' with h1 | ⟨c, s2, e2, hr2, hh2, h1⟩
        · right; exact ⟨.jsonFormat, by rw [h1]; rfl, .inl rfl⟩
        rw [h1]
        simp only [bind, Except.bind]
        rcases readSkipStr_cases (mid st true true true s2) (by rw [mid_json _ h]; exact hh2) with ⟨c3, s3, e3, hr3, hne3, h3⟩ | ⟨e3, h3, h4⟩
        · rw [mid_json _ h] at e3
          rw [h3, mid_set _ h]
          simp only [mid_json _ h]
          unfold colon
          obtain ⟨w4, hw4, hws4⟩ := skipWs_split s3
          split
          · rename_i heq
            split at heq
            · cases heq
            · cases heq
              right; exact ⟨.jsonFormat, rfl, .inl rfl⟩
          · rename_i s5 heq
            split at heq
            · rename_i s6 h58
              cases heq
              rw [h58] at hw4
              have hr4 : Run .out (w4 ++ [58]) .out := (run_ws hws4).trans (run_out (by decide))
              have e4 : s' = c ++ c3 ++ (w4 ++ [58]) ++ s5 := by rw [e2, e3, hw4]; simp
              have hr : Run .out (c ++ c3 ++ (w4 ++ [58])) .out := (hr2.trans hr3).trans hr4
              have hl4 : s5.length < s'.length := by rw [e4]; simp only [List.length_append, List.length_cons]; omega
              rw [mid_set _ h]
              rcases ih1 (mid st true true true s5) (mid_ready _ h _ _ _) (by rw [mid_json _ h]; omega) with
                ⟨c5, r, sc, e5, h5, h6, h7⟩ | ⟨e5, h5, h6⟩
              · rw [mid_json _ h] at e5
                rw [h7, mid_after _ h]
                simp only []
                have hl5 : r.length < s5.length := by
                  rw [e5]; have := List.length_pos_iff.2 h6; simp only [List.length_append]; omega
                rcases ih3 st true r h (by omega) with ⟨c', r', e8, h8, h9, h10⟩ | ⟨e8, h8, h9⟩
                · left
                  exact ⟨w ++ ((c ++ c3 ++ (w4 ++ [58])) ++ (c5 ++ c')), r', by rw [e, e4, e5, e8]; simp,
                    hrw.trans (hr.trans (h5.trans h8)), by simp, h10⟩
                · right
                  exact ⟨e8, h8, by rw [e, e4, e5]; exact ((h9.left h5).left hr).left hrw⟩
              · rw [mid_json _ h] at h6
                right
                exact ⟨e5, by rw [h5], by rw [e, e4]; exact (h6.left hr).left hrw⟩
            · cases heq
        · rw [mid_json _ h] at h4
          right
          exact ⟨e3, by rw [h3], by rw [e, e2]; exact (h4.left hr2).left hrw⟩

/-- What `jsonValidate` accepts ends outside of strings; the errors are known. -/
theorem validate_cases (s : Str) : (validate s = .ok () ∧ Run .out s .out) ∨ ∃ e, validate s = .error e ∧ Bad s e := by
  rcases (skip_cases (2 * s.length + 2)).1 (readNew s) ⟨rfl, rfl⟩ (by simp [readNew]) with ⟨c, r, sc, e, h1, h2, h3⟩ | ⟨e, h1, h2⟩
  · have hv : validate s = if skipWs r = [] then .ok () else .error .jsonFormat := by
      unfold validate jsonReadSkip
      rw [show (readNew s).json = s from rfl, h3]
      simp only [bind, Except.bind, after_json _ (show Ready (readNew s) from ⟨rfl, rfl⟩)]
    rw [hv]
    by_cases hr : skipWs r = []
    · left
      refine ⟨by rw [if_pos hr], ?_⟩
      obtain ⟨w, hw, hws⟩ := skipWs_split r
      rw [hr, List.append_nil] at hw
      have : s = c ++ r := e
      rw [this]
      exact h1.trans (run_ws (by rw [hw]; exact hws))
    · right; exact ⟨.jsonFormat, by rw [if_neg hr], .inl rfl⟩
  · right
    refine ⟨e, ?_, h2⟩
    unfold validate jsonReadSkip
    rw [show (readNew s).json = s from rfl, h1]
    rfl

end Verif.Json
