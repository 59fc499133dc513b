import Verif.Json.Scan
import Verif.Json.Props

/-!
# Values in a longer text

A text that `jsonValidate` accepts is not a proper part of another one that is continued by a byte other than a digit or white space. The
automaton of `Scan` on the text of a value.
-/

namespace Verif.Json

/-- The reader with more text behind its own. -/
def add (x : Str) (st : Rd) : Rd := { st with json := st.json ++ x }

theorem skipWs_add {s r x : Str} {c : UInt8} (h : skipWs s = c :: r) : skipWs (s ++ x) = c :: (r ++ x) := by
  unfold skipWs at *
  induction s with
  | nil => simp at h
  | cons a s ih =>
    rw [List.cons_append, List.dropWhile_cons]
    rw [List.dropWhile_cons] at h
    split at h
    · rename_i ha; rw [if_pos ha]; exact ih h
    · rename_i ha; rw [if_neg ha]; cases h; rfl

theorem typeNext_add {s s' : Str} {t : Ty} (x : Str) (h : typeNext s = .ok (t, s')) : typeNext (s ++ x) = .ok (t, s' ++ x) := by
  unfold typeNext at *
  cases hs : skipWs s with
  | nil => rw [hs] at h; cases h
  | cons c r =>
    rw [hs] at h
    rw [skipWs_add hs]
    simp only at h ⊢
    cases ht : tyOf c with
    | none => rw [ht] at h; cases h
    | some t' => rw [ht] at h; cases h; rfl

theorem typeNextIC_add {s s' : Str} {t : Ty} (x : Str) (h : typeNextIC s = .ok (t, s')) : typeNextIC (s ++ x) = .ok (t, s' ++ x) := by
  unfold typeNextIC at *
  split at h
  · rename_i r heq
    rw [skipWs_add heq]
    simp only
    cases hr : typeNext r with
    | error e => rw [hr] at h; cases h
    | ok a => rw [hr] at h; rw [typeNext_add x hr]; cases h; rfl
  · rename_i hne
    cases hs : skipWs s with
    | nil => rw [hs] at h; cases h
    | cons c r =>
      rw [skipWs_add hs]
      rw [hs] at h
      have hc : c ≠ 44 := by rintro rfl; exact hne r hs
      split
      · rename_i heq; cases heq; exact absurd rfl hc
      · rw [← List.cons_append]; exact typeNext_add x h

theorem pushComma_add {i : Item} {key : Bool} {t : Ty} {s s' : Str} {b : Bool} (x : Str) (hh : Head t s)
    (h : pushComma i key s = .ok (s', b)) : pushComma i key (s ++ x) = .ok (s' ++ x, b) := by
  unfold pushComma at *
  split at h
  · rename_i hc
    rw [if_pos hc]
    cases s with
    | nil => cases h
    | cons c r =>
      split at h
      · rename_i r' heq
        cases heq
        simp only [List.cons_append]
        have := head_behind hh
        obtain ⟨c', r', hc'⟩ : ∃ c' r', skipWs r = c' :: r' := by
          rcases this with ⟨c, r, h, _⟩ | ⟨w, c, r, h, _⟩ <;> exact ⟨_, _, h⟩
        rw [skipWs_add hc']
        cases h
        rw [hc']; rfl
      · cases h
  · rename_i hc
    rw [if_neg hc]
    cases h; rfl

theorem push_add {st st' : Rd} {ty : Ty} {key : Bool} (x : Str) (h : push st ty key = .ok st') :
    push (add x st) ty key = .ok (add x st') := by
  unfold push at *
  by_cases hc : st.complete = true
  · rw [if_pos hc] at h; cases h
  · rw [if_neg hc] at h
    rw [if_neg (show ¬(add x st).complete = true from hc)]
    simp only [add]
    rcases typeNextIC_cases st.json with h0 | ⟨t, w, s, h0, _, _, hh⟩
    · rw [h0] at h; cases h
    rw [h0] at h
    rw [typeNextIC_add x h0]
    simp only [bind, Except.bind] at h ⊢
    split at h
    · cases h
    rename_i ht
    rw [if_neg ht]
    cases hst : st.stack with
    | none =>
      simp only [hst] at h ⊢
      split at h
      · cases h
      · rename_i hk
        rw [if_neg hk]
        split at h
        · rename_i hs; rw [if_pos hs]; cases h; rfl
        · rename_i hs; rw [if_neg hs]; cases h; rfl
    | some l =>
      cases l with
      | nil => simp only [hst] at h; cases h
      | cons item up =>
        simp only [hst] at h ⊢
        cases hpk : pushKey item key st.key with
        | error e => rw [hpk] at h; cases h
        | ok hk =>
          rw [hpk] at h
          simp only at h ⊢
          cases hpc : pushComma item key s with
          | error e => rw [hpc] at h; cases h
          | ok a =>
            obtain ⟨s2, f⟩ := a
            rw [hpc] at h
            rw [pushComma_add x hh hpc]
            cases h; rfl

theorem skip1_add {st st' : Rd} (x : Str) (h : skip1 st = .ok st') : skip1 (add x st) = .ok (add x st') := by
  unfold skip1 at *
  simp only [add]
  cases hj : st.json with
  | nil => rw [hj] at h; cases h
  | cons c r => rw [hj] at h; cases h; rfl

theorem pop_add {st st' : Rd} {ty : Ty} (x : Str) (h : pop st ty = .ok st') : pop (add x st) ty = .ok (add x st') := by
  unfold pop at *
  by_cases hc : st.complete = true
  · rw [if_pos hc] at h; cases h
  · rw [if_neg hc] at h
    rw [if_neg (show ¬(add x st).complete = true from hc)]
    simp only [add]
    split at h
    · rename_i item up hst
      split at h
      · cases h
      · rename_i ho
        rw [if_neg ho]
        simp only [bind, Except.bind] at h ⊢
        cases hn : typeNext st.json with
        | error e => rw [hn] at h; cases h
        | ok a =>
          obtain ⟨t, s⟩ := a
          rw [hn] at h
          rw [typeNext_add x hn]
          simp only at h ⊢
          split at h
          · cases h
          · rename_i ht; rw [if_neg ht]; cases h; rfl
    · cases h

theorem readNumber_add {s r x : Str} {k : Int} (hx : Stop x) (h : readNumber s = .ok (k, r)) : readNumber (s ++ x) = .ok (k, r ++ x) := by
  have hs : s ≠ [] := by rintro rfl; revert h; simp [readNumber]
  have hstop : ∀ l : Str, (l ++ x).takeWhile isDigit = l.takeWhile isDigit ∧ (l ++ x).dropWhile isDigit = l.dropWhile isDigit ++ x := by
    intro l
    induction l with
    | nil =>
      cases x with
      | nil => simp
      | cons c x => simp [hx c rfl]
    | cons a l ih =>
      rw [List.cons_append, List.takeWhile_cons, List.dropWhile_cons, List.takeWhile_cons, List.dropWhile_cons]
      split
      · exact ⟨by rw [ih.1], ih.2⟩
      · exact ⟨rfl, rfl⟩
  unfold readNumber at *
  have h1 : (s ++ x).head? = s.head? := by cases s with | nil => exact absurd rfl hs | cons c s => rfl
  have h2 : (s ++ x).tail = s.tail ++ x := by cases s with | nil => exact absurd rfl hs | cons c s => rfl
  rw [h1, h2]
  simp only [] at h ⊢
  rw [show (if s.head? = some 45 then s.tail ++ x else s ++ x) = (if s.head? = some 45 then s.tail else s) ++ x by split <;> rfl]
  rw [(hstop _).1, (hstop _).2]
  generalize (if s.head? = some 45 then s.tail else s).takeWhile isDigit = d at h ⊢
  generalize (if s.head? = some 45 then s.tail else s).dropWhile isDigit = q at h ⊢
  by_cases c1 : d = []
  · rw [if_pos c1] at h; cases h
  rw [if_neg c1] at h ⊢
  by_cases c2 : d.length ≥ 64
  · rw [if_pos c2] at h; cases h
  rw [if_neg c2] at h ⊢
  by_cases c3 : s.head? = some 45
  · rw [if_pos c3] at h ⊢
    simp only [bind, Except.bind] at h ⊢
    cases hv : Num.toInt64Base 10 (45 :: d) with
    | error e => rw [hv] at h; cases h
    | ok v => rw [hv] at h; cases h; rfl
  · rw [if_neg c3] at h ⊢
    simp only [bind, Except.bind] at h ⊢
    cases hv : Num.toUInt64Base 10 d with
    | error e => rw [hv] at h; cases h
    | ok v => rw [hv] at h; cases h; rfl

theorem skipStrBody_add (x : Str) : ∀ (n m : Nat) (s r : Str), n ≤ m → skipStrBody n s = .ok r → skipStrBody m (s ++ x) = .ok (r ++ x)
  | 0, _, _, _, _, h => by cases h
  | n + 1, m, [], r, _, h => by cases h
  | n + 1, 0, _ :: _, r, hm, h => by omega
  | n + 1, m + 1, c :: s, r, hm, h => by
    have ih := skipStrBody_add x n m
    rw [List.cons_append]
    have e0 : ∀ n c r, skipStrBody (n + 1) (c :: r) = strStep n c r := fun n c r => by rw [skipStrBody.eq_def]; rfl
    rw [e0] at h ⊢
    unfold strStep at h ⊢
    split at h
    · rename_i c1; rw [if_pos c1]; cases h; rfl
    rename_i c1; rw [if_neg c1]
    split at h
    · rename_i c2; rw [if_pos c2]
      cases s with
      | nil => cases h
      | cons e s =>
        simp only [List.cons_append] at h ⊢
        split at h
        · rename_i c3; rw [if_pos c3]
          match s, h with
          | d1 :: d2 :: d3 :: d4 :: s, h =>
            simp only [List.cons_append] at h ⊢
            split at h
            · rename_i c4; rw [if_pos c4]
              match s, h with
              | y :: s, h => exact ih _ _ (by omega) h
            · cases h
        · rename_i c3; rw [if_neg c3]
          exact ih _ _ (by omega) h
    · rename_i c2; rw [if_neg c2]
      exact ih _ _ (by omega) h

theorem readSkipStr_add {st st' : Rd} (x : Str) (h : readSkipStr st = .ok st') : readSkipStr (add x st) = .ok (add x st') := by
  unfold readSkipStr at *
  simp only [bind, Except.bind] at h ⊢
  cases h1 : skip1 st with
  | error e => rw [h1] at h; cases h
  | ok a =>
    rw [h1] at h
    rw [skip1_add x h1]
    simp only at h ⊢
    cases h2 : skipStrBody (a.json.length + 1) a.json with
    | error e => rw [h2] at h; cases h
    | ok s =>
      rw [h2] at h
      rw [show (add x a).json = a.json ++ x from rfl, skipStrBody_add x _ _ _ _ (by simp) h2]
      cases h; rfl

theorem prefix_add {p s : Str} (x : Str) (h : p.isPrefixOf s = true) : p.isPrefixOf (s ++ x) = true ∧ (s ++ x).drop p.length = s.drop p.length ++ x := by
  have := prefix_drop h
  constructor
  · rw [this, List.append_assoc, List.isPrefixOf_iff_prefix]; exact List.prefix_append _ _
  · conv_lhs => rw [this, List.append_assoc]
    rw [List.drop_left]

theorem readBool_add {st st' : Rd} {b : Bool} (x : Str) (h : readBool st = .ok (b, st')) : readBool (add x st) = .ok (b, add x st') := by
  unfold readBool at *
  simp only [bind, Except.bind] at h ⊢
  cases h1 : push st .bool false with
  | error e => rw [h1] at h; cases h
  | ok a =>
    rw [h1] at h
    rw [push_add x h1]
    simp only [] at h ⊢
    split at h
    · rename_i c1
      have := prefix_add x c1
      rw [if_pos (show trueZ.isPrefixOf (add x a).json = true from this.1)]; cases h
      simp only [add]
      rw [show 4 = trueZ.length from rfl, this.2]
    · split at h
      · rename_i c1 c2
        have := prefix_add x c2
        have h3 : trueZ.isPrefixOf (a.json ++ x) = false := by
          rw [prefix_drop c2]
          simp [falseZ, trueZ, List.isPrefixOf]
        rw [if_neg (show ¬trueZ.isPrefixOf (add x a).json = true by rw [show (add x a).json = a.json ++ x from rfl, h3]; decide),
          if_pos (show falseZ.isPrefixOf (add x a).json = true from this.1)]
        cases h
        simp only [add]
        rw [show 5 = falseZ.length from rfl, this.2]
      · cases h

theorem readNull_add {st st' : Rd} (x : Str) (h : readNull st = .ok st') : readNull (add x st) = .ok (add x st') := by
  unfold readNull at *
  simp only [bind, Except.bind] at h ⊢
  cases h1 : push st .null false with
  | error e => rw [h1] at h; cases h
  | ok a =>
    rw [h1] at h
    rw [push_add x h1]
    simp only [] at h ⊢
    split at h
    · rename_i c1
      have := prefix_add x c1
      rw [if_pos (show nullZ.isPrefixOf (add x a).json = true from this.1)]; cases h
      simp only [add]
      rw [show 4 = nullZ.length from rfl, this.2]
    · cases h

theorem colon_add {s s' : Str} (x : Str) (h : colon s = .ok s') : colon (s ++ x) = .ok (s' ++ x) := by
  unfold colon at *
  split at h
  · rename_i r heq; rw [skipWs_add heq]; cases h; rfl
  · cases h

theorem container_add {st st' : Rd} {ty : Ty} (x : Str) (h : (do skip1 (← push st ty false) : Res Rd) = .ok st') :
    (do skip1 (← push (add x st) ty false) : Res Rd) = .ok (add x st') := by
  simp only [bind, Except.bind] at h ⊢
  cases h1 : push st ty false with
  | error e => rw [h1] at h; cases h
  | ok a => rw [h1] at h; rw [push_add x h1]; exact skip1_add x h

theorem end_add {st st' : Rd} {ty : Ty} (x : Str) (h : (do skip1 (← pop st ty) : Res Rd) = .ok st') :
    (do skip1 (← pop (add x st) ty) : Res Rd) = .ok (add x st') := by
  simp only [bind, Except.bind] at h ⊢
  cases h1 : pop st ty with
  | error e => rw [h1] at h; cases h
  | ok a => rw [h1] at h; rw [pop_add x h1]; exact skip1_add x h

theorem skip_add {x : Str} (hx : Stop x) (n : Nat) :
    (∀ m st st', n ≤ m → readSkip n st = .ok st' → readSkip m (add x st) = .ok (add x st')) ∧
    (∀ m st st', n ≤ m → readSkipItems n st = .ok st' → readSkipItems m (add x st) = .ok (add x st')) ∧
    (∀ m st st', n ≤ m → readSkipFields n st = .ok st' → readSkipFields m (add x st) = .ok (add x st')) := by
  induction n with
  | zero => exact ⟨fun _ _ _ _ h => (by cases h), fun _ _ _ _ h => (by cases h), fun _ _ _ _ h => (by cases h)⟩
  | succ n ih =>
    obtain ⟨ih1, ih2, ih3⟩ := ih
    refine ⟨?_, ?_, ?_⟩
    · intro m st st' hm h
      obtain ⟨m, rfl⟩ : ∃ k, m = k + 1 := ⟨m - 1, by omega⟩
      have hm' : n ≤ m := by omega
      rw [readSkip] at h ⊢
      rcases typeNextIC_cases st.json with h0 | ⟨t, w, s, h0, _, _, _⟩
      · rw [h0] at h; cases h
      rw [h0] at h
      rw [show (add x st).json = st.json ++ x from rfl, typeNextIC_add x h0]
      simp only [bind, Except.bind] at h ⊢
      rw [show ({ add x st with json := s ++ x } : Rd) = add x { st with json := s } from rfl]
      cases t with
      | bool =>
        simp only at h ⊢
        cases h1 : readBool { st with json := s } with
        | error e => rw [h1] at h; cases h
        | ok a => obtain ⟨b, a⟩ := a; rw [h1] at h; rw [readBool_add x h1]; cases h; rfl
      | null => exact readNull_add x h
      | number =>
        simp only at h ⊢
        cases h1 : push { st with json := s } .number false with
        | error e => rw [h1] at h; cases h
        | ok a =>
          rw [h1] at h
          rw [push_add x h1]
          simp only at h ⊢
          cases h2 : readNumber a.json with
          | error e => rw [h2] at h; cases h
          | ok b =>
            obtain ⟨k, r⟩ := b
            rw [h2] at h
            rw [show (add x a).json = a.json ++ x from rfl, readNumber_add hx h2]
            cases h; rfl
      | string =>
        simp only at h ⊢
        cases h1 : push { st with json := s } .string false with
        | error e => rw [h1] at h; cases h
        | ok a => rw [h1] at h; rw [push_add x h1]; exact readSkipStr_add x h
      | arrayBegin =>
        simp only at h ⊢
        cases h1 : readArrayBegin { st with json := s } with
        | error e => rw [h1] at h; cases h
        | ok a =>
          rw [h1] at h
          have h2 : readArrayBegin (add x { st with json := s }) = _ := container_add x h1
          rw [h2]; exact ih2 m _ _ hm' h
      | arrayEnd =>
        simp only at h ⊢
        cases h1 : readObjectBegin { st with json := s } with
        | error e => rw [h1] at h; cases h
        | ok a =>
          rw [h1] at h
          have h2 : readObjectBegin (add x { st with json := s }) = _ := container_add x h1
          rw [h2]; exact ih3 m _ _ hm' h
      | objectBegin =>
        simp only at h ⊢
        cases h1 : readObjectBegin { st with json := s } with
        | error e => rw [h1] at h; cases h
        | ok a =>
          rw [h1] at h
          have h2 : readObjectBegin (add x { st with json := s }) = _ := container_add x h1
          rw [h2]; exact ih3 m _ _ hm' h
      | objectEnd =>
        simp only at h ⊢
        cases h1 : readObjectBegin { st with json := s } with
        | error e => rw [h1] at h; cases h
        | ok a =>
          rw [h1] at h
          have h2 : readObjectBegin (add x { st with json := s }) = _ := container_add x h1
          rw [h2]; exact ih3 m _ _ hm' h
    · intro m st st' hm h
      obtain ⟨m, rfl⟩ : ∃ k, m = k + 1 := ⟨m - 1, by omega⟩
      have hm' : n ≤ m := by omega
      rw [readSkipItems] at h ⊢
      rcases typeNextIC_cases st.json with h0 | ⟨t, w, s, h0, _, _, _⟩
      · rw [h0] at h; cases h
      rw [h0] at h
      rw [show (add x st).json = st.json ++ x from rfl, typeNextIC_add x h0]
      simp only [bind, Except.bind] at h ⊢
      rw [show ({ add x st with json := s ++ x } : Rd) = add x { st with json := s } from rfl]
      split at h
      · rename_i ht; rw [if_pos ht]; exact end_add x h
      · rename_i ht; rw [if_neg ht]
        cases h1 : readSkip n { st with json := s } with
        | error e => rw [h1] at h; cases h
        | ok a => rw [h1] at h; rw [ih1 m _ _ hm' h1]; exact ih2 m _ _ hm' h
    · intro m st st' hm h
      obtain ⟨m, rfl⟩ : ∃ k, m = k + 1 := ⟨m - 1, by omega⟩
      have hm' : n ≤ m := by omega
      rw [readSkipFields] at h ⊢
      rcases typeNextIC_cases st.json with h0 | ⟨t, w, s, h0, _, _, _⟩
      · rw [h0] at h; cases h
      rw [h0] at h
      rw [show (add x st).json = st.json ++ x from rfl, typeNextIC_add x h0]
      simp only [bind, Except.bind] at h ⊢
      rw [show ({ add x st with json := s ++ x } : Rd) = add x { st with json := s } from rfl]
      split at h
      · rename_i ht; rw [if_pos ht]; exact end_add x h
      · rename_i ht; rw [if_neg ht]
        cases h1 : push { st with json := s } .string true with
        | error e => rw [h1] at h; cases h
        | ok a =>
          rw [h1] at h
          rw [push_add x h1]
          simp only at h ⊢
          cases h2 : readSkipStr a with
          | error e => rw [h2] at h; cases h
          | ok b =>
            rw [h2] at h
            rw [readSkipStr_add x h2]
            simp only at h ⊢
            cases h3 : colon b.json with
            | error e => rw [h3] at h; cases h
            | ok c =>
              rw [h3] at h
              rw [show (add x b).json = b.json ++ x from rfl, colon_add x h3]
              simp only at h ⊢
              rw [show ({ add x b with json := c ++ x } : Rd) = add x { b with json := c } from rfl]
              cases h4 : readSkip n { b with json := c } with
              | error e => rw [h4] at h; cases h
              | ok d => rw [h4] at h; rw [ih1 m _ _ hm' h4]; exact ih3 m _ _ hm' h

/-- An accepted text that is continued by a byte other than a digit or white space is not accepted. -/
theorem validate_add {s : Str} {c : UInt8} (x : Str) (hd : isDigit c = false) (hw : isWs c = false) (h : validate s = .ok ()) :
    validate (s ++ c :: x) = .error .jsonFormat := by
  unfold validate jsonReadSkip at *
  simp only [bind, Except.bind] at h ⊢
  cases h1 : readSkip (2 * (readNew s).json.length + 2) (readNew s) with
  | error e => rw [h1] at h; cases h
  | ok a =>
    rw [h1] at h
    have h2 := (skip_add (x := c :: x) (by intro y hy; cases hy; exact hd) _).1 (2 * (readNew (s ++ c :: x)).json.length + 2) _ _
      (by simp [readNew]) h1
    rw [show readNew (s ++ c :: x) = add (c :: x) (readNew s) from rfl] at h2 ⊢
    rw [h2]
    simp only at h ⊢
    split at h
    · rename_i hr
      have : skipWs (a.json ++ c :: x) = c :: x := ws_skip (by
        obtain ⟨w, e, hw'⟩ := skipWs_split a.json
        rw [hr, List.append_nil] at e
        rw [e]; exact hw') hw x
      simp [add, this]
    · cases h

/-- Two accepted texts with the same continuation, each followed by a comma or a closing brace, are equal. -/
theorem validate_unique {s t x y : Str} {c d : UInt8} (hs : validate s = .ok ()) (ht : validate t = .ok ())
    (hc : c = 44 ∨ c = 125) (hd : d = 44 ∨ d = 125) (h : s ++ c :: x = t ++ d :: y) : s = t ∧ c = d ∧ x = y := by
  rcases List.append_eq_append_iff.1 h with ⟨z, e1, e2⟩ | ⟨z, e1, e2⟩
  · cases z with
    | nil => simp only [List.append_nil] at e1; simp only [List.nil_append, List.cons.injEq] at e2; exact ⟨e1.symm, e2⟩
    | cons a z =>
      rw [List.cons_append] at e2
      obtain ⟨rfl, _⟩ := List.cons.inj e2
      rw [e1, validate_add z (by rcases hc with rfl | rfl <;> decide) (by rcases hc with rfl | rfl <;> decide) hs] at ht
      cases ht
  · cases z with
    | nil =>
      simp only [List.append_nil] at e1; simp only [List.nil_append, List.cons.injEq] at e2
      exact ⟨e1, e2.1.symm, e2.2.symm⟩
    | cons a z =>
      rw [List.cons_append] at e2
      obtain ⟨rfl, _⟩ := List.cons.inj e2
      rw [e1, validate_add z (by rcases hd with rfl | rfl <;> decide) (by rcases hd with rfl | rfl <;> decide) ht] at hs
      cases hs

/-! ## The automaton on the text of a value -/

/-- A string that ends with a comma and blanks. -/
def CommaEnd (s : Str) : Prop := ∃ a n, s = a ++ 44 :: List.replicate n 32

/-- A value that is not a string, or an object with a key, that ends with a comma and blanks. -/
def Quiet : Val → Prop
  | .str s => ¬CommaEnd s
  | .obj l => ∀ x ∈ l, ¬CommaEnd x.1
  | _ => True

/-- No string and no key within a value ends with a comma and blanks. -/
def Calm (v : Val) : Prop := ∀ p w, v.find p = some w → Quiet w

theorem Calm.part {v w : Val} {s : Step} (h : Calm v) (hs : v.part s = some w) : Calm w := by
  intro p x hx
  exact h (s :: p) x (by simp [Val.find, hs, hx])

theorem calm_sorted {v : Val} (hg : Good v) (h : Calm v) : Calm (sorted v) := by
  intro p w hw
  rw [find_sorted p v hg] at hw
  cases hf : v.find p with
  | none => rw [hf] at hw; cases hw
  | some w' =>
    rw [hf] at hw
    cases hw
    have := h p w' hf
    cases w' with
    | obj l =>
      intro x hx
      have h1 := (sortFields_mem _ _).1 hx
      have h2 : x.1 ∈ (sortedFields l).map Prod.fst := List.mem_map_of_mem h1
      rw [sortedFields_keys] at h2
      obtain ⟨y, hy, e⟩ := List.mem_map.1 h2
      rw [← e]; exact this y hy
    | _ => exact this

theorem run_inn {s : Str} {m : Mode} (h : ∀ c ∈ s, c ≠ 34 ∧ c ≠ 92) (hr : Run .inn s m) : m = .inn := by
  induction s with
  | nil => exact hr.symm
  | cons c s ih =>
    obtain ⟨x, h1, h2⟩ := hr
    have hc := h c (by simp)
    rcases h1 with ⟨rfl, _⟩ | ⟨rfl, _⟩ | ⟨_, _, rfl⟩
    · exact absurd rfl hc.1
    · exact absurd rfl hc.2
    · exact ih (fun c hc => h c (List.mem_cons_of_mem _ hc)) h2

theorem escape_cases (c : UInt8) : (∃ x, escape c = [92, x]) ∨ (escape c = [c] ∧ c ≠ 34 ∧ c ≠ 92 ∧ c ≠ 10 ∧ (isWs c = true → c = 32)) := by
  unfold escape
  split; · exact .inl ⟨_, rfl⟩
  split; · exact .inl ⟨_, rfl⟩
  split; · exact .inl ⟨_, rfl⟩
  split; · exact .inl ⟨_, rfl⟩
  split; · exact .inl ⟨_, rfl⟩
  split; · exact .inl ⟨_, rfl⟩
  split; · exact .inl ⟨_, rfl⟩
  right
  rename_i a b c1 d e f g
  refine ⟨rfl, a, b, c1, ?_⟩
  intro h
  simp only [isWs, Bool.or_eq_true, beq_iff_eq] at h
  rcases h with ((h | h) | h) | h
  · exact h
  · exact absurd h e
  · exact absurd h c1
  · exact absurd h d

theorem CommaEnd.cons {s : Str} (c : UInt8) (h : CommaEnd s) : CommaEnd (c :: s) := by
  obtain ⟨a, n, rfl⟩ := h
  exact ⟨c :: a, n, rfl⟩

theorem run_escape : ∀ (s : Str) (m0 m : Mode), m0 = .out ∨ m0 = .trick → Run m0 (s.flatMap escape) m →
    m = .out ∨ (m = .trick ∧ (CommaEnd s ∨ (m0 = .trick ∧ ∃ n, s = List.replicate n 32)))
  | [], m0, m, h0, h => by
    have : m0 = m := h
    subst this
    rcases h0 with rfl | rfl
    · exact .inl rfl
    · exact .inr ⟨rfl, .inr ⟨rfl, 0, rfl⟩⟩
  | c :: s, m0, m, h0, h => by
    rw [List.flatMap_cons] at h
    obtain ⟨m1, h1, h2⟩ := run_append h
    rcases escape_cases c with ⟨x, e⟩ | ⟨e, c34, c92, c10, cw⟩
    · rw [e] at h1
      obtain ⟨m2, h3, _⟩ := h1
      rcases h0 with rfl | rfl
      · rcases h3 with ⟨h, _⟩ | ⟨h, _⟩ | ⟨_, h, _⟩
        · exact absurd h (by decide)
        · exact absurd h (by decide)
        · exact absurd rfl h
      · rcases h3 with ⟨h, _⟩ | ⟨h, _⟩ <;> exact absurd h (by decide)
    · rw [e] at h1
      obtain ⟨m2, h3, h4⟩ := h1
      have h4 : m2 = m1 := h4
      subst h4
      rcases h0 with rfl | rfl
      · rcases h3 with ⟨h, _⟩ | ⟨h, rfl⟩ | ⟨_, _, _, rfl⟩
        · exact absurd h c34
        · rcases run_escape s .trick m (.inr rfl) h2 with h5 | ⟨h5, h6 | ⟨_, n, h6⟩⟩
          · exact .inl h5
          · exact .inr ⟨h5, .inl (h6.cons c)⟩
          · exact .inr ⟨h5, .inl ⟨[], n, by rw [h, h6]; rfl⟩⟩
        · rcases run_escape s .out m (.inl rfl) h2 with h5 | ⟨h5, h6 | ⟨h6, _⟩⟩
          · exact .inl h5
          · exact .inr ⟨h5, .inl (h6.cons c)⟩
          · cases h6
      · rcases h3 with ⟨h, _⟩ | ⟨h, rfl⟩
        · exact absurd h c34
        · rcases run_escape s .trick m (.inr rfl) h2 with h5 | ⟨h5, h6 | ⟨_, n, h6⟩⟩
          · exact .inl h5
          · exact .inr ⟨h5, .inl (h6.cons c)⟩
          · exact .inr ⟨h5, .inr ⟨rfl, n + 1, by rw [h6, cw h]; rfl⟩⟩

theorem run_string {s : Str} {m : Mode} (hs : ¬CommaEnd s) (h : Run .inn (34 :: s.flatMap escape ++ [34]) m) : m = .inn := by
  rw [List.cons_append] at h
  obtain ⟨m1, h1, h2⟩ := h
  rcases h1 with ⟨_, rfl⟩ | ⟨h, _⟩ | ⟨h, _, _⟩
  · obtain ⟨m2, h3, m3, h4, h5⟩ := run_append h2
    have h5 : m3 = m := h5
    subst h5
    rcases run_escape s .out m2 (.inl rfl) h3 with rfl | ⟨_, h6 | ⟨h6, _⟩⟩
    · rcases h4 with ⟨_, h⟩ | ⟨h, _⟩ | ⟨h, _⟩
      · exact h
      · exact absurd h (by decide)
      · exact absurd rfl h
    · exact absurd h6 hs
    · cases h6
  · exact absurd h (by decide)
  · exact absurd rfl h

theorem keyOk_escape {k : Str} (h : keyOk k = true) : k.flatMap escape = k := by
  induction k with
  | nil => rfl
  | cons c k ih =>
    rw [List.flatMap_cons]
    have h' : keyOk k = true := (keyOk_cons h).2
    rw [ih h']
    have : escape c = [c] := by
      simp only [keyOk, List.all_cons, Bool.and_eq_true, bne_iff_ne, ne_eq] at h
      unfold escape
      simp [h]
    rw [this]; rfl

theorem run_plain {s t : Str} {m : Mode} (hs : ∀ c ∈ s, c ≠ 34 ∧ c ≠ 92) (h : Run .inn (s ++ t) m) : Run .inn t m := by
  obtain ⟨b, h1, h2⟩ := run_append h
  rw [run_inn hs h1] at h2
  exact h2

theorem number_plain (n : Int) : ∀ c ∈ Num.intToZ n, c ≠ 34 ∧ c ≠ 92 := by
  intro c hc
  unfold Num.intToZ at hc
  have hd : ∀ k c, c ∈ Num.fmt 10 false k → c ≠ 34 ∧ c ≠ 92 := fun k c h => ⟨(digit_plain (fmt_digits k c h)).1, (digit_plain (fmt_digits k c h)).2.1⟩
  split at hc
  · rw [List.mem_cons] at hc
    rcases hc with rfl | hc
    · decide
    · exact hd _ _ hc
  · exact hd _ _ hc

mutual

theorem run_text : ∀ (v : Val) (m : Mode), Fit v → Calm v → Run .inn (text v) m → m = .inn
  | .null, m, _, _, h => run_inn (by decide) h
  | .bool b, m, _, _, h => run_inn (by cases b <;> decide) h
  | .num n, m, _, _, h => run_inn (number_plain n) h
  | .str s, m, _, hc, h => run_string (hc [] _ rfl) h
  | .arr l, m, hf, hc, h => by
    rw [text, List.cons_append] at h
    have h1 := run_plain (s := [91]) (by decide) h
    obtain ⟨b, h2, h3⟩ := run_append h1
    have hb := run_items l false b hf (fun w hw => by
      obtain ⟨i, hi⟩ := List.mem_iff_getElem?.1 hw
      exact hc.part (s := .item i) hi) h2
    subst hb
    exact run_inn (by decide) h3
  | .obj l, m, hf, hc, h => by
    rw [text, List.cons_append] at h
    have h1 := run_plain (s := [123]) (by decide) h
    obtain ⟨b, h2, h3⟩ := run_append h1
    have hn : (l.map Prod.fst).Nodup := hf.2.imp (fun {a b} h e => by subst e; exact Str.lt_irrefl a h)
    have hb := run_fields l false b hf.1 (fun x hx => ⟨hc [] _ rfl x hx, hc.part (s := .field x.1) (lookup_of_mem hn hx)⟩) h2
    subst hb
    exact run_inn (by decide) h3

theorem run_items : ∀ (l : List Val) (c : Bool) (m : Mode), FitItems l → (∀ w ∈ l, Calm w) → Run .inn (items c l) m → m = .inn
  | [], c, m, _, _, h => by simp only [items] at h; exact h.symm
  | v :: l, c, m, hf, hc, h => by
    rw [items] at h
    have h1 := run_plain (s := if c then [44] else []) (by cases c <;> decide) h
    obtain ⟨b, h2, h3⟩ := run_append h1
    have hb := run_text v b hf.1 (hc v (by simp)) h2
    subst hb
    exact run_items l true m hf.2 (fun w hw => hc w (List.mem_cons_of_mem _ hw)) h3

theorem run_fields : ∀ (l : List (Str × Val)) (c : Bool) (m : Mode), FitFields l → (∀ x ∈ l, ¬CommaEnd x.1 ∧ Calm x.2) →
    Run .inn (fields c l) m → m = .inn
  | [], c, m, _, _, h => by simp only [fields] at h; exact h.symm
  | (k, v) :: l, c, m, hf, hc, h => by
    rw [fields] at h
    have h1 := run_plain (s := if c then [44] else []) (by cases c <;> decide) h
    rw [show 34 :: k ++ 34 :: 58 :: (text v ++ fields true l) = (34 :: k.flatMap escape ++ [34]) ++ ([58] ++ (text v ++ fields true l)) by
      rw [keyOk_escape hf.1.1]; simp] at h1
    obtain ⟨b, h2, h3⟩ := run_append h1
    have hb := run_string (hc (k, v) (by simp)).1 h2
    subst hb
    obtain ⟨b, h4, h5⟩ := run_append (run_plain (s := [58]) (by decide) h3)
    have hb := run_text v b hf.2.1 (hc (k, v) (by simp)).2 h4
    subst hb
    exact run_fields l true m hf.2.2 (fun w hw => hc w (List.mem_cons_of_mem _ hw)) h5

end

/-- Behind an equals sign the automaton is within a string. -/
theorem run_equals {s : Str} {m : Mode} (h : Run .out (s ++ [61]) m) : m = .inn := by
  obtain ⟨b, _, x, h1, h2⟩ := run_append h
  have h2 : x = m := h2
  subst h2
  cases b with
  | out =>
    rcases h1 with ⟨h, _⟩ | ⟨h, _⟩ | ⟨_, _, h, _⟩
    · exact absurd h (by decide)
    · exact absurd h (by decide)
    · exact absurd rfl h
  | trick => rcases h1 with ⟨h, _⟩ | ⟨h, _⟩ <;> exact absurd h (by decide)
  | inn =>
    rcases h1 with ⟨h, _⟩ | ⟨h, _⟩ | ⟨_, _, h⟩
    · exact absurd h (by decide)
    · exact absurd h (by decide)
    · exact h
  | esc =>
    rcases h1 with ⟨h, _⟩ | ⟨_, h⟩
    · exact absurd h (by decide)
    · exact h
  | uni n => cases n <;> (have := h1.1; exact absurd this (by decide))
  | ext => exact h1

/-- A text with an equals sign before the text of a value is not valid. The error is the one that makes the reader of lines try again. -/
theorem validate_wrong {v : Val} (s : Str) (hf : Fit v) (hc : Calm v) (hl : ¬LongRun (s ++ 61 :: text v)) :
    validate (s ++ 61 :: text v) = .error .jsonFormat := by
  have hrun : ∀ m, Run .out (s ++ 61 :: text v) m → m = .inn := by
    intro m h
    rw [show s ++ 61 :: text v = (s ++ [61]) ++ text v by simp] at h
    obtain ⟨b, h1, h2⟩ := run_append h
    rw [run_equals h1] at h2
    exact run_text v m hf hc h2
  rcases validate_cases (s ++ 61 :: text v) with ⟨_, h⟩ | ⟨e, h, h1 | ⟨_, h1⟩ | ⟨_, h1 | h1⟩⟩
  · have := hrun _ h; cases this
  · rw [h, h1]
  · exact absurd h1 hl
  · have := hrun _ h1; cases this
  · have := hrun _ h1; cases this

theorem escape_plain (s : Str) : 10 ∉ s.flatMap escape := by
  rw [List.mem_flatMap]
  rintro ⟨c, _, h⟩
  have : ∀ c : UInt8, 10 ∉ escape c := by
    intro c
    unfold escape
    split; · decide
    split; · decide
    split; · decide
    split; · decide
    split; · decide
    split; · decide
    split; · decide
    rename_i h _ _ _ _
    rw [List.mem_singleton]; exact fun e => h e.symm
  exact this c h

mutual

theorem text_newline : ∀ v, Fit v → 10 ∉ text v
  | .null, _ => by decide
  | .bool b, _ => by cases b <;> decide
  | .num n, _ => by
    intro h
    rw [text, Num.intToZ] at h
    split at h
    · rw [List.mem_cons] at h
      rcases h with h | h
      · exact absurd h (by decide)
      · have := fmt_digits _ _ h; exact absurd this (by decide)
    · have := fmt_digits _ _ h; exact absurd this (by decide)
  | .str s, _ => by
    rw [text]
    have := escape_plain s
    simp [this]
  | .arr l, hf => by
    have := items_newline l false hf
    rw [text]; simp [this]
  | .obj l, hf => by
    have := fields_newline l false hf.1
    rw [text]; simp [this]

theorem items_newline : ∀ (l : List Val) (c : Bool), FitItems l → 10 ∉ items c l
  | [], c, _ => by simp [items]
  | v :: l, c, hf => by
    have h1 := text_newline v hf.1
    have h2 := items_newline l true hf.2
    rw [items]
    cases c <;> simp [h1, h2]

theorem fields_newline : ∀ (l : List (Str × Val)) (c : Bool), FitFields l → 10 ∉ fields c l
  | [], c, _ => by simp [fields]
  | (k, v) :: l, c, hf => by
    have h1 := text_newline v hf.2.1
    have h2 := fields_newline l true hf.2.2
    have h3 : 10 ∉ k := by rw [← keyOk_escape hf.1.1]; exact escape_plain k
    rw [fields]
    cases c <;> simp [h1, h2, h3]

end

theorem fromVar_text {v : Val} (h : Good v) : jsonFromVar v = .ok (text (sorted v)) := by
  have h1 := writeVal_text _ writeNew (fit_sorted v h) ⟨rfl, rfl⟩
  simp only [jsonFromVar, writeVar, bind, Except.bind]
  rw [h1]
  simp [wafter, writeNew, wsep]

/-- The text of a value that is not an array does not end with a bracket. -/
theorem text_last {v : Val} (hv : ∀ l, v ≠ .arr l) : ∃ a c, text v = a ++ [c] ∧ c ≠ 93 := by
  cases v with
  | null => exact ⟨[110, 117, 108], 108, rfl, by decide⟩
  | bool b => cases b <;> [exact ⟨[102, 97, 108, 115], 101, rfl, by decide⟩; exact ⟨[116, 114, 117], 101, rfl, by decide⟩]
  | num n =>
    have hne : text (.num n) ≠ [] := by
      rw [text, Num.intToZ]; split
      · simp
      · exact fmt_ne _
    refine ⟨_, _, (List.dropLast_append_getLast hne).symm, ?_⟩
    intro e
    have h := List.getLast_mem hne
    rw [e] at h
    rw [text, Num.intToZ] at h
    split at h
    · rw [List.mem_cons] at h
      rcases h with h | h
      · exact absurd h (by decide)
      · have := fmt_digits _ _ h; exact absurd this (by decide)
    · have := fmt_digits _ _ h; exact absurd this (by decide)
  | str s => exact ⟨34 :: s.flatMap escape, 34, rfl, by decide⟩
  | arr l => exact absurd rfl (hv l)
  | obj l => exact ⟨123 :: fields false l, 125, rfl, by decide⟩

/-- A quoted string is found again in a longer text. -/
theorem quoted_unique {a b x y : Str} (h : a.flatMap escape ++ 34 :: x = b.flatMap escape ++ 34 :: y) : a = b ∧ x = y := by
  have h1 := strBody_text a x (a.length + b.length + 1) (by omega)
  have h2 := strBody_text b y (a.length + b.length + 1) (by omega)
  rw [h, h2] at h1
  cases h1
  exact ⟨rfl, rfl⟩

end Verif.Json
