import Verif.Wait.Model
import Mathlib.Data.Nat.Fib.Basic

/-!
# C80: how long is waited and how often is retried, and what is said of errors of retries
-/

namespace Verif.Wait

/-! ## Specification -/

/-- The time of the first sleep. -/
def unit (waitTime : Nat) : Nat := min 100 (waitTime / 10)

/-- A clock that is not set back, and sleeps that are not shorter than they should be: each reading is after the one before and the sleep. -/
def Steady : Nat → List Nat → List (Option Nat) → Prop
  | _, [], _ => True
  | now, t :: ts, r :: rs => now ≤ t ∧ Steady (t + r.getD 0) ts rs
  | _, _ :: _, [] => False

/-- An error: its type, its message and when it was. -/
structure Error where
  type : Nat
  message : List UInt8
  time : Nat

/-- All errors, one after the other. -/
def errors (begin : Nat) (es : List Error) : ErrRetry := es.foldl (fun r e => errRetryAdd r e.type e.message e.time) (errRetryNew begin)

/-! ## Waiting -/

theorem sub_le {a b : Nat} (h : b ≤ a) : sub a b = a - b := by
  unfold sub
  rw [if_pos h]

theorem unit_eq (wt now : Nat) : (waitNew wt now).sleepTime = unit wt := by
  unfold waitNew unit
  simp only
  split <;> omega

theorem more_time {w : Wait} {t : Nat} (h : 0 < w.sleepTime) (ht : sub t w.beginTime < w.waitTime) :
    waitMore w t = (some (min (w.sleepTime + w.sleepPrevTime) (w.waitTime - sub t w.beginTime)),
      { w with sleepPrevTime := w.sleepTime, sleepTime := min (w.sleepTime + w.sleepPrevTime) (w.waitTime - sub t w.beginTime), retry := w.retry - 1 }) := by
  have hm : (if w.sleepTime + w.sleepPrevTime > w.waitTime - sub t w.beginTime then w.waitTime - sub t w.beginTime else w.sleepTime + w.sleepPrevTime) =
      min (w.sleepTime + w.sleepPrevTime) (w.waitTime - sub t w.beginTime) := by
    split <;> omega
  unfold waitMore waitRemains
  simp only [if_pos h, if_pos ht, hm]
  by_cases hr : w.retry > 0
  · simp only [if_pos hr]
    rw [if_pos (by omega)]
  · have : w.retry = 0 := by omega
    simp only [if_neg hr]
    rw [if_pos (by omega)]
    simp [this]

theorem more_retry {w : Wait} {t : Nat} (h : 0 < w.sleepTime) (ht : ¬sub t w.beginTime < w.waitTime) (hr : 0 < w.retry) :
    waitMore w t = (some w.sleepTime, { w with retry := w.retry - 1 }) := by
  unfold waitMore waitRemains
  simp only [if_pos h, if_neg ht, if_pos (show w.retry ≠ 0 by omega), if_pos (show w.retry > 0 from hr)]

theorem more_end {w : Wait} {t : Nat} (h : 0 < w.sleepTime) (ht : ¬sub t w.beginTime < w.waitTime) (hr : w.retry = 0) :
    waitMore w t = (none, { w with sleepTime := 0 }) := by
  unfold waitMore waitRemains
  simp [if_pos h, if_neg ht, hr]

theorem more_zero {w : Wait} {t : Nat} (h : w.sleepTime = 0) : waitMore w t = (none, w) := by
  unfold waitMore waitRemains
  simp [h]

/-- What is true after some calls. -/
structure Inv (wt now : Nat) (n : Nat) (w : Wait) : Prop where
  waitTime : w.waitTime = wt
  beginTime : w.beginTime = now
  retry : w.retry = 2 - n
  sleep : 0 < w.sleepTime

/-- The state after calls. -/
def after : Wait → List Nat → Wait
  | w, [] => w
  | w, t :: ts => after (waitMore w t).2 ts

theorem calls_append (w : Wait) (ts us : List Nat) : calls w (ts ++ us) = calls w ts ++ calls (after w ts) us := by
  induction ts generalizing w with
  | nil => rfl
  | cons t ts ih => simp [calls, after, ih]

theorem calls_length (w : Wait) (ts : List Nat) : (calls w ts).length = ts.length := by
  induction ts generalizing w with
  | nil => rfl
  | cons t ts ih => simp [calls, ih]

theorem inv_step {wt now n : Nat} {w : Wait} (h : Inv wt now n w) (t : Nat) :
    (∃ s, (waitMore w t).1 = some s ∧ 0 < s ∧ Inv wt now (n + 1) (waitMore w t).2) ∨ ((waitMore w t).1 = none ∧ 2 ≤ n ∧ wt ≤ sub t now ∧ (waitMore w t).2.sleepTime = 0) := by
  have h0 := h.sleep
  have hr := h.retry
  by_cases ht : sub t w.beginTime < w.waitTime
  · rw [more_time h0 ht]
    exact .inl ⟨_, rfl, by omega, h.waitTime, h.beginTime, by simp only; omega, by simp only; omega⟩
  · by_cases h2 : 0 < w.retry
    · rw [more_retry h0 ht h2]
      exact .inl ⟨_, rfl, h0, h.waitTime, h.beginTime, by simp only; omega, h0⟩
    · rw [more_end h0 ht (by omega)]
      refine .inr ⟨rfl, by omega, ?_, rfl⟩
      rw [← h.waitTime, ← h.beginTime]
      omega

theorem inv_new {wt now : Nat} (h : 10 ≤ wt) : Inv wt now 0 (waitNew wt now) :=
  ⟨rfl, rfl, rfl, by rw [unit_eq]; unfold unit; omega⟩

theorem zero_calls {w : Wait} (h : w.sleepTime = 0) : ∀ ts, ∀ r ∈ calls w ts, r = none := by
  intro ts
  induction ts with
  | nil => simp [calls]
  | cons t ts ih =>
    simp only [calls, more_zero h, List.mem_cons]
    rintro r (rfl | hr)
    · rfl
    · exact ih r hr

/-- After calls all of which said to go on. -/
theorem inv_after {wt now : Nat} : ∀ (ts : List Nat) (n : Nat) (w : Wait), Inv wt now n w → (∀ r ∈ calls w ts, r ≠ none) → Inv wt now (n + ts.length) (after w ts) := by
  intro ts
  induction ts with
  | nil => intro n w h _; exact h
  | cons t ts ih =>
    intro n w h hr
    rcases inv_step h t with ⟨s, h1, h2, h3⟩ | ⟨h1, _⟩
    · have := ih (n + 1) _ h3 (fun r hx => hr r (by simp [calls, hx]))
      rw [Nat.add_assoc, Nat.add_comm 1] at this
      exact this
    · exact absurd h1 (hr _ (by simp [calls]))

theorem zero_after {wt now : Nat} : ∀ (ts : List Nat) (n : Nat) (w : Wait), (Inv wt now n w ∨ w.sleepTime = 0) → (∃ r ∈ calls w ts, r = none) → (after w ts).sleepTime = 0 := by
  have hz : ∀ (ts : List Nat) (w : Wait), w.sleepTime = 0 → (after w ts).sleepTime = 0 := by
    intro ts
    induction ts with
    | nil => intro w h; exact h
    | cons t ts ih => intro w h; exact ih _ (by rw [more_zero h]; exact h)
  intro ts
  induction ts with
  | nil => intro n w _ h; simp [calls] at h
  | cons t ts ih =>
    intro n w h hr
    rcases h with h | h
    · rcases inv_step h t with ⟨s, h1, h2, h3⟩ | ⟨_, _, _, h4⟩
      · refine ih (n + 1) _ (.inl h3) ?_
        obtain ⟨r, hr, rfl⟩ := hr
        simp only [calls, List.mem_cons] at hr
        rcases hr with hr | hr
        · rw [h1] at hr; cases hr
        · exact ⟨_, hr, rfl⟩
      · exact hz ts _ h4
    · exact hz _ w h

/-- C80: with a timeout of at least 10 ms there are at least two retries, however long the attempts last and whatever the clock does. -/
theorem c80_tries (wt now : Nat) (h : 10 ≤ wt) (t1 t2 : Nat) (ts : List Nat) : ∃ s1 s2 rs, calls (waitNew wt now) (t1 :: t2 :: ts) = some s1 :: some s2 :: rs ∧ 0 < s1 ∧ 0 < s2 := by
  rcases inv_step (inv_new (now := now) h) t1 with ⟨s1, h1, h2, h3⟩ | ⟨_, h2, _⟩
  · rcases inv_step h3 t2 with ⟨s2, g1, g2, g3⟩ | ⟨_, g2, _⟩
    · exact ⟨s1, s2, calls (waitMore (waitMore (waitNew wt now) t1).2 t2).2 ts, by simp [calls, h1, g1], h2, g2⟩
    · omega
  · omega

/-- C80: it is never given up before the time is over. -/
theorem c80_not_before (wt now : Nat) (h : 10 ≤ wt) (ts : List Nat) (t : Nat) (hr : ∀ r ∈ calls (waitNew wt now) ts, r ≠ none)
    (hend : calls (waitNew wt now) (ts ++ [t]) = calls (waitNew wt now) ts ++ [none]) (h1 : now ≤ t) : now + wt ≤ t ∧ 2 ≤ ts.length := by
  have hi := inv_after ts 0 _ (inv_new (now := now) h) hr
  rw [calls_append] at hend
  have hl := List.append_cancel_left hend
  simp only [calls, List.cons.injEq, and_true] at hl
  rcases inv_step hi t with ⟨s, g1, _⟩ | ⟨_, g2, g3, _⟩
  · rw [hl] at g1; cases g1
  · rw [sub_le h1] at g3
    omega

/-- C80: once it is given up there is no retry, even if the clock is set back. -/
theorem c80_final (wt now : Nat) (ts us : List Nat) (hr : none ∈ calls (waitNew wt now) ts) : ∀ r ∈ calls (after (waitNew wt now) ts) us, r = none := by
  apply zero_calls
  by_cases h : 10 ≤ wt
  · exact zero_after (wt := wt) (now := now) ts 0 _ (.inl (inv_new h)) ⟨_, hr, rfl⟩
  · exact zero_after (wt := wt) (now := now) ts 0 _ (.inr (by rw [unit_eq]; unfold unit; omega)) ⟨_, hr, rfl⟩

/-- The state after calls with a steady clock: sleep times are Fibonacci numbers, or the time is over with the next call. -/
structure Fib (wt now n : Nat) (w : Wait) (next : Nat) : Prop where
  inv : Inv wt now n w
  first : now ≤ next
  sleep : (w.sleepTime = unit wt * Nat.fib (n + 1) ∧ w.sleepPrevTime = unit wt * Nat.fib n ∧ now + unit wt * (Nat.fib (n + 3) - 2) ≤ next) ∨ now + wt ≤ next

theorem fib_two_le (n : Nat) : 2 ≤ Nat.fib (n + 3) := by
  have h3 : Nat.fib 3 = 2 := by decide
  have : Nat.fib 3 ≤ Nat.fib (n + 3) := Nat.fib_mono (by omega)
  omega

theorem fib_step {wt now n : Nat} {w : Wait} {next t : Nat} (h : Fib wt now n w next) (h1 : next ≤ t) :
    (∃ s, (waitMore w t).1 = some s ∧ Fib wt now (n + 1) (waitMore w t).2 (t + s) ∧ (t < now + wt → t + s ≤ now + wt ∧ s ≤ unit wt * Nat.fib (n + 2) ∧ (s = unit wt * Nat.fib (n + 2) ∨ t + s = now + wt))) ∨
      ((waitMore w t).1 = none ∧ now + wt ≤ t) := by
  have hf := h.first
  have h0 := h.inv.sleep
  have hs : sub t w.beginTime = t - now := by rw [h.inv.beginTime]; exact sub_le (by omega)
  have hw := h.inv.waitTime
  have hi := inv_step h.inv t
  by_cases ht : sub t w.beginTime < w.waitTime
  · rw [more_time h0 ht] at hi ⊢
    rcases hi with ⟨s, hs1, hs2, hs3⟩ | ⟨hn, _⟩
    · rcases h.sleep with ⟨a1, a2, a3⟩ | a
      · have e : w.sleepTime + w.sleepPrevTime = unit wt * Nat.fib (n + 2) := by
          rw [a1, a2, ← Nat.mul_add, Nat.fib_add_two, Nat.add_comm]
        refine .inl ⟨_, rfl, ⟨hs3, by omega, ?_⟩, ?_⟩
        · by_cases hc : unit wt * Nat.fib (n + 2) ≤ w.waitTime - sub t w.beginTime
          · left
            simp only [e, Nat.min_eq_left hc]
            refine ⟨trivial, a1, ?_⟩
            have hfib : Nat.fib (n + 4) = Nat.fib (n + 2) + Nat.fib (n + 3) := Nat.fib_add_two
            have h2 := fib_two_le n
            have e3 : Nat.fib (n + 1 + 3) - 2 = (Nat.fib (n + 3) - 2) + Nat.fib (n + 2) := by
              show Nat.fib (n + 4) - 2 = _
              omega
            rw [e3, Nat.mul_add]
            omega
          · right
            rw [e, Nat.min_eq_right (by omega)]
            omega
        · intro _
          rw [e]
          omega
      · exfalso; omega
    · simp at hn
  · by_cases hr : 0 < w.retry
    · rw [more_retry h0 ht hr] at hi ⊢
      rcases hi with ⟨s, hs1, hs2, hs3⟩ | ⟨hn, _⟩
      · exact .inl ⟨_, rfl, ⟨hs3, by omega, .inr (by omega)⟩, fun hlt => by omega⟩
      · simp at hn
    · rw [more_end h0 ht (by omega)]
      exact .inr ⟨rfl, by omega⟩

theorem fib_new {wt now : Nat} (h : 10 ≤ wt) : Fib wt now 0 (waitNew wt now) now :=
  ⟨inv_new h, Nat.le_refl _, .inl ⟨by rw [unit_eq]; simp, by simp [waitNew], by simp [Nat.fib]⟩⟩

theorem fib_after {wt now : Nat} : ∀ (ts : List Nat) (n : Nat) (w : Wait) (next : Nat), Fib wt now n w next → Steady next ts (calls w ts) → (∀ r ∈ calls w ts, r ≠ none) →
    ∃ next', Fib wt now (n + ts.length) (after w ts) next' ∧ ∀ us rs, Steady next (ts ++ us) (calls w ts ++ rs) → Steady next' us rs := by
  intro ts
  induction ts with
  | nil => intro n w next h _ _; exact ⟨next, h, fun us rs h => h⟩
  | cons t ts ih =>
    intro n w next h hs hr
    simp only [calls, Steady] at hs
    rcases fib_step h hs.1 with ⟨s, h1, h2, _⟩ | ⟨h1, _⟩
    · rw [h1] at hs
      obtain ⟨next', g1, g2⟩ := ih (n + 1) _ _ h2 hs.2 (fun r hx => hr r (by simp [calls, hx]))
      refine ⟨next', by rw [Nat.add_assoc, Nat.add_comm 1] at g1; exact g1, ?_⟩
      intro us rs h
      simp only [calls, List.cons_append, Steady, h1] at h
      exact g2 us rs h.2
    · exact absurd h1 (hr _ (by simp [calls]))

theorem steady_prefix : ∀ (ts us : List Nat) (n : Nat) (rs qs : List (Option Nat)), rs.length = ts.length → Steady n (ts ++ us) (rs ++ qs) → Steady n ts rs := by
  intro ts
  induction ts with
  | nil => intros; simp [Steady]
  | cons t ts ih =>
    intro us n rs qs hl h
    cases rs with
    | nil => simp at hl
    | cons r rs =>
      simp only [List.cons_append, Steady] at h ⊢
      exact ⟨h.1, ih us _ rs qs (by simpa using hl) h.2⟩

/-- C80: sleep times are Fibonacci numbers of a tenth of a second, or of a tenth of the timeout if it is below a second, but no sleep that begins before the time is over ends after it: the
sleep is cut so that it ends with the timeout. -/
theorem c80_sleep (wt now : Nat) (h : 10 ≤ wt) (ts : List Nat) (t : Nat) (hr : ∀ r ∈ calls (waitNew wt now) ts, r ≠ none)
    (hs : Steady now (ts ++ [t]) (calls (waitNew wt now) (ts ++ [t]))) (ht : t < now + wt) :
    ∃ s, calls (waitNew wt now) (ts ++ [t]) = calls (waitNew wt now) ts ++ [some s] ∧ s = min (unit wt * Nat.fib (ts.length + 2)) (now + wt - t) := by
  rw [calls_append] at hs ⊢
  obtain ⟨next, g1, g2⟩ := fib_after ts 0 _ _ (fib_new h) (steady_prefix _ _ _ _ _ (calls_length _ _) hs) hr
  have g := g2 _ _ hs
  simp only [calls, Steady] at g
  rcases fib_step g1 g.1 with ⟨s, h1, _, h3⟩ | ⟨_, h2⟩
  · refine ⟨s, by simp [calls, h1], ?_⟩
    have := h3 ht
    simp only [Nat.zero_add] at this
    omega
  · omega

/-- C80: there is no more than a certain number of retries: if the clock is not set back then it is given up after `n` retries at the latest, where the first `n` sleep times are
together not less than the timeout. -/
theorem c80_ends (wt now : Nat) (h : 10 ≤ wt) (ts : List Nat) (t : Nat) (hs : Steady now (ts ++ [t]) (calls (waitNew wt now) (ts ++ [t])))
    (h2 : 2 ≤ ts.length) (hn : wt ≤ unit wt * (Nat.fib (ts.length + 3) - 2)) : none ∈ calls (waitNew wt now) (ts ++ [t]) := by
  by_cases hr : ∀ r ∈ calls (waitNew wt now) ts, r ≠ none
  · rw [calls_append] at hs ⊢
    obtain ⟨next, g1, g2⟩ := fib_after ts 0 _ _ (fib_new h) (steady_prefix _ _ _ _ _ (calls_length _ _) hs) hr
    have g := g2 _ _ hs
    simp only [calls, Steady] at g
    have hlate : now + wt ≤ t := by
      rcases g1.sleep with ⟨_, _, a⟩ | a
      · rw [Nat.zero_add] at a; omega
      · omega
    have hsub : sub t now = t - now := sub_le (by omega)
    have hend : (waitMore (after (waitNew wt now) ts) t).1 = none := by
      rw [more_end g1.inv.sleep]
      · rw [g1.inv.waitTime, g1.inv.beginTime, hsub]; omega
      · rw [g1.inv.retry]; omega
    simp [calls, hend]
  · have : none ∈ calls (waitNew wt now) ts := by
      apply Classical.byContradiction
      intro hn
      exact hr fun r hr e => hn (e ▸ hr)
    rw [calls_append]
    exact List.mem_append_left _ this

/-- C80: with a timeout of a minute there are at most 12 retries. -/
theorem c80_minute (now : Nat) (ts : List Nat) (t : Nat) (hs : Steady now (ts ++ [t]) (calls (waitNew 60000 now) (ts ++ [t]))) (h : ts.length = 12) :
    none ∈ calls (waitNew 60000 now) (ts ++ [t]) := by
  apply c80_ends 60000 now (by omega) ts t hs (by omega)
  rw [h]
  decide +kernel

/-- C80: with a timeout of less than 10 ms there is no retry, even though there is time. -/
theorem c80_short (wt now : Nat) (h : wt < 10) (ts : List Nat) : ∀ r ∈ calls (waitNew wt now) ts, r = none :=
  zero_calls (by rw [unit_eq]; unfold unit; omega) ts

/-- C80: if the clock is set back to before the beginning then the wait is taken to be over. -/
theorem c80_clock_back : calls (waitNew 60000 1000000) [1000100, 999000, 999100] = [some 100, some 100, none] := by decide +kernel

example : calls (waitNew 1000 0) [0, 100, 300, 600, 1000] = [some 100, some 200, some 300, some 400, none] := by decide +kernel
example : Steady 0 [0, 100, 300, 600, 1000] (calls (waitNew 1000 0) [0, 100, 300, 600, 1000]) := by
  rw [show calls (waitNew 1000 0) [0, 100, 300, 600, 1000] = [some 100, some 200, some 300, some 400, none] by decide +kernel]
  simp [Steady]
example : calls (waitNew 1000 0) [5000, 9000, 13000] = [some 100, some 100, none] := by decide +kernel

/-! ## Errors of retries -/

theorem itemAdd_spec (base : Nat) (es : List Error) (e : Error) : ∀ l : List Item, (l.map (·.message)).Nodup →
    (∀ m, m ∈ l.map (·.message) ↔ m ∈ es.map (·.message)) →
    (∀ i ∈ l, ∃ a b, (es.filter (·.message = i.message)).head? = some a ∧ (es.filter (·.message = i.message)).getLast? = some b ∧
      i.total = (es.filter (·.message = i.message)).length ∧ i.type = a.type ∧ i.retryFirst = sub a.time base ∧ i.retryLast = sub b.time base) →
    ((itemAdd e.type e.message (sub e.time base) l).map (·.message)).Nodup ∧
    (∀ m, m ∈ (itemAdd e.type e.message (sub e.time base) l).map (·.message) ↔ m ∈ (es ++ [e]).map (·.message)) ∧
    (∀ i ∈ itemAdd e.type e.message (sub e.time base) l, ∃ a b, ((es ++ [e]).filter (·.message = i.message)).head? = some a ∧ ((es ++ [e]).filter (·.message = i.message)).getLast? = some b ∧
      i.total = ((es ++ [e]).filter (·.message = i.message)).length ∧ i.type = a.type ∧ i.retryFirst = sub a.time base ∧ i.retryLast = sub b.time base) := by
  intro l hn hm hi
  have hmsg : ∀ l : List Item, (itemAdd e.type e.message (sub e.time base) l).map (·.message) = if e.message ∈ l.map (·.message) then l.map (·.message) else l.map (·.message) ++ [e.message] := by
    intro l
    induction l with
    | nil => simp [itemAdd]
    | cons x l ih =>
      unfold itemAdd
      by_cases hx : x.message = e.message
      · simp [hx]
      · rw [if_neg hx, List.map_cons, ih]
        by_cases h2 : e.message ∈ l.map (·.message)
        · rw [if_pos h2, if_pos (by simp only [List.map_cons, List.mem_cons]; exact .inr h2)]; rfl
        · rw [if_neg h2, if_neg (by simp only [List.map_cons, List.mem_cons, not_or]; exact ⟨Ne.symm hx, h2⟩)]; rfl
  have hitem : ∀ l : List Item, (l.map (·.message)).Nodup → ∀ i ∈ itemAdd e.type e.message (sub e.time base) l,
      (i ∈ l ∧ i.message ≠ e.message) ∨ (∃ j ∈ l, j.message = e.message ∧ i = { j with total := j.total + 1, retryLast := sub e.time base }) ∨
      (e.message ∉ l.map (·.message) ∧ i = ⟨e.message, 1, e.type, sub e.time base, sub e.time base⟩) := by
    intro l
    induction l with
    | nil => intro _ i hi; simp only [itemAdd, List.mem_singleton] at hi; exact .inr (.inr ⟨by simp, hi⟩)
    | cons x l ih =>
      intro hn i hi
      obtain ⟨hx, hn⟩ := List.nodup_cons.mp hn
      unfold itemAdd at hi
      by_cases h : x.message = e.message
      · rw [if_pos h] at hi
        rcases List.mem_cons.mp hi with rfl | hi
        · exact .inr (.inl ⟨x, by simp, h, rfl⟩)
        · refine .inl ⟨by simp [hi], ?_⟩
          intro h2
          exact hx (List.mem_map.mpr ⟨i, hi, h2.trans h.symm⟩)
      · rw [if_neg h] at hi
        rcases List.mem_cons.mp hi with rfl | hi
        · exact .inl ⟨by simp, h⟩
        · rcases ih hn i hi with ⟨a, b⟩ | ⟨j, a, b⟩ | ⟨a, b⟩
          · exact .inl ⟨by simp [a], b⟩
          · exact .inr (.inl ⟨j, by simp [a], b⟩)
          · exact .inr (.inr ⟨by simp only [List.map_cons, List.mem_cons, not_or]; exact ⟨Ne.symm h, a⟩, b⟩)
  refine ⟨?_, ?_, ?_⟩
  · rw [hmsg]
    split
    · exact hn
    · rename_i h
      exact List.nodup_append.mpr ⟨hn, by simp, by intro a ha b hb; simp only [List.mem_singleton] at hb; subst hb; exact fun e => h (e ▸ ha)⟩
  · intro m
    rw [hmsg, List.map_append, List.mem_append]
    split
    · rename_i h
      constructor
      · intro h; exact .inl ((hm m).mp h)
      · rintro (h | h)
        · exact (hm m).mpr h
        · simp only [List.map_cons, List.map_nil, List.mem_singleton] at h; subst h; assumption
    · rw [List.mem_append, hm m]; rfl
  · intro i hx
    rcases hitem l hn i hx with ⟨h1, h2⟩ | ⟨j, h1, h2, rfl⟩ | ⟨h1, rfl⟩
    · have e0 : (es ++ [e]).filter (·.message = i.message) = es.filter (·.message = i.message) := by
        rw [List.filter_append]; simp [Ne.symm h2]
      rw [e0]
      exact hi i h1
    · obtain ⟨a, b, g1, g2, g3, g4, g5, g6⟩ := hi j h1
      have e0 : (es ++ [e]).filter (·.message = j.message) = es.filter (·.message = j.message) ++ [e] := by
        rw [List.filter_append]; simp [h2]
      simp only
      rw [e0]
      refine ⟨a, e, ?_, by simp, by simp [g3], g4, g5, rfl⟩
      rw [List.head?_append, g1]; rfl
    · have e0 : (es ++ [e]).filter (·.message = e.message) = [e] := by
        rw [List.filter_append]
        have : es.filter (·.message = e.message) = [] := by
          rw [List.filter_eq_nil_iff]
          intro x hx he
          exact h1 ((hm _).mpr (List.mem_map.mpr ⟨x, hx, by simpa using he⟩))
        rw [this]; simp
      simp only
      rw [e0]
      exact ⟨e, e, rfl, rfl, rfl, rfl, rfl, rfl⟩

/-- C80: what is said of errors: the type and the message are those of the first one. Every message of a later one is said once, with how often it was, with when it was first and last, and with the
type of the first that had it. -/
theorem c80_errors (base : Nat) (e : Error) (es : List Error) : (errors base (e :: es)).type = some e.type ∧ (errors base (e :: es)).message = e.message ∧
    ((errors base (e :: es)).list.map (·.message)).Nodup ∧ (∀ m, m ∈ (errors base (e :: es)).list.map (·.message) ↔ m ∈ es.map (·.message)) ∧
    (∀ i ∈ (errors base (e :: es)).list, ∃ a b, (es.filter (·.message = i.message)).head? = some a ∧ (es.filter (·.message = i.message)).getLast? = some b ∧
      i.total = (es.filter (·.message = i.message)).length ∧ i.type = a.type ∧ i.retryFirst = sub a.time base ∧ i.retryLast = sub b.time base) := by
  have key : ∀ es : List Error, ∃ l, errors base (e :: es) = ⟨some e.type, e.message, l, base⟩ ∧ (l.map (·.message)).Nodup ∧ (∀ m, m ∈ l.map (·.message) ↔ m ∈ es.map (·.message)) ∧
      (∀ i ∈ l, ∃ a b, (es.filter (·.message = i.message)).head? = some a ∧ (es.filter (·.message = i.message)).getLast? = some b ∧
      i.total = (es.filter (·.message = i.message)).length ∧ i.type = a.type ∧ i.retryFirst = sub a.time base ∧ i.retryLast = sub b.time base) := by
    intro es
    induction es using List.reverseRecOn with
    | nil => exact ⟨[], rfl, by simp, by simp, by simp⟩
    | append_singleton es x ih =>
      obtain ⟨l, h1, h2, h3, h4⟩ := ih
      have hstep : errors base (e :: (es ++ [x])) = errRetryAdd (errors base (e :: es)) x.type x.message x.time := by
        unfold errors
        rw [← List.cons_append, List.foldl_append]
        rfl
      refine ⟨itemAdd x.type x.message (sub x.time base) l, ?_, itemAdd_spec base es x l h2 h3 h4⟩
      rw [hstep, h1]
      rfl
  obtain ⟨l, h1, h2⟩ := key es
  rw [h1]
  exact ⟨rfl, rfl, h2⟩

/-- C80: the message has a line for each of them, with how often if they were at different times. -/
theorem c80_message (r : ErrRetry) : (errRetryMessage r).1 = r.message ∧ (errRetryMessage r).2.length = r.list.length ∧ ∀ (n : Nat) (i : Item), r.list[n]? = some i →
    ∃ l : Line, (errRetryMessage r).2[n]? = some l ∧ l.message = i.message ∧ l.type = i.type ∧ l.first = i.retryFirst ∧ l.last = i.retryLast ∧ (i.retryFirst ≠ i.retryLast → l.total = some i.total) := by
  refine ⟨rfl, by simp [errRetryMessage], ?_⟩
  intro n i hi
  refine ⟨⟨i.type, if i.retryFirst = i.retryLast then none else some i.total, i.retryFirst, i.retryLast, i.message⟩, by simp [errRetryMessage, hi], rfl, rfl, rfl, rfl, ?_⟩
  intro h
  simp [h]

/-- C80: two errors of different types with the same message are said to be of the type of the first one, and two at the same time are said to be one. -/
theorem c80_merged : (errRetryMessage (errors 0 [⟨1, [97], 0⟩, ⟨2, [98], 5⟩, ⟨3, [98], 5⟩])).2 = [⟨2, none, 5, 5, [98]⟩] := by decide +kernel

example : (errRetryMessage (errors 0 [⟨1, [97], 0⟩, ⟨2, [98], 5⟩, ⟨1, [97], 7⟩, ⟨2, [98], 9⟩])) = ([97], [⟨2, some 2, 5, 9, [98]⟩, ⟨1, none, 7, 7, [97]⟩]) := by decide +kernel

end Verif.Wait
