import Verif.Http.ProcessModel
import Verif.Wait.Props

/-!
# C81: the response is to the request, which was sent as a whole, and failures are retried
-/

namespace Verif.Http.Process

open Verif.Wait

variable {σ S R : Type}

/-! ## Specification -/

/-- What happens on the network. -/
inductive Ev (S R : Type) where
  | opened (s : S)
  | openFailed (e : Err)
  | wrote (s : S)
  | writeFailed (s : S) (e : Err)
  | got (s : S) (r : R)
  | readFailed (s : S) (e : Err)
  | slept (ms : Nat)
  deriving DecidableEq

/-- A network that keeps what happens on it. -/
def traced (net : Net σ S R) : Net (σ × List (Ev S R)) S R where
  opn := fun (w, l) => ((net.opn w).1, (net.opn w).2, l ++ [match (net.opn w).1 with | .ok s => .opened s | .error e => .openFailed e])
  write := fun (w, l) s => ((net.write w s).1, (net.write w s).2, l ++ [match (net.write w s).1 with | .ok _ => .wrote s | .error e => .writeFailed s e])
  read := fun (w, l) s => ((net.read w s).1, (net.read w s).2, l ++ [match (net.read w s).1 with | .ok r => .got s r | .error e => .readFailed s e])
  code := net.code
  clock := fun (w, _) => net.clock w
  sleep := fun (w, l) ms => (net.sleep w ms, l ++ [.slept ms])

/-- The service says that the request should be sent again: server errors, request timeout, too many requests. -/
def Again (code : Nat) : Prop := (500 ≤ code ∧ code ≤ 599) ∨ code = 408 ∨ code = 429

instance (code : Nat) : Decidable (Again code) := by unfold Again; infer_instance

/-- The error of what failed. -/
def failure (code : R → Nat) : Ev S R → Option Err
  | .writeFailed _ e => some e
  | .readFailed _ e => some e
  | .got _ r => if Again (code r) then some .service else none
  | _ => none

/-- A request is written only to a session that was opened for it just before, and an answer is read only from a session to which it was written just before. -/
def Fresh : Option S → Option S → List (Ev S R) → Prop
  | _, _, [] => True
  | _, _, .opened s :: l => Fresh (some s) none l
  | o, _, .wrote s :: l => o = some s ∧ Fresh none (some s) l
  | o, _, .writeFailed s _ :: l => o = some s ∧ Fresh none none l
  | _, a, .got s _ :: l => a = some s ∧ Fresh none none l
  | _, a, .readFailed s _ :: l => a = some s ∧ Fresh none none l
  | _, _, _ :: l => Fresh none none l

/-! ## Proofs -/

theorem again_iff (code : Nat) : codeRetry code = true ↔ Again code := by
  unfold codeRetry Again
  simp only [Bool.or_eq_true, beq_iff_eq]
  omega

theorem fresh_weak : ∀ (l : List (Ev S R)) (o a : Option S), Fresh none none l → Fresh o a l := by
  intro l o a h
  cases l with
  | nil => trivial
  | cons e l => cases e <;> simp_all [Fresh]

theorem fresh_append : ∀ (l m : List (Ev S R)) (o a : Option S), Fresh o a l → Fresh none none m → Fresh o a (l ++ m) := by
  intro l
  induction l with
  | nil => intro m o a _ h; exact fresh_weak m o a h
  | cons e l ih =>
    intro m o a h hm
    cases e <;> simp only [List.cons_append, Fresh] at h ⊢
    · exact ih _ _ _ h hm
    · exact ih _ _ _ h hm
    · exact ⟨h.1, ih _ _ _ h.2 hm⟩
    · exact ⟨h.1, ih _ _ _ h.2 hm⟩
    · exact ⟨h.1, ih _ _ _ h.2 hm⟩
    · exact ⟨h.1, ih _ _ _ h.2 hm⟩
    · exact ih _ _ _ h hm

/-- What an attempt adds to the log. -/
def AttLog (code : R → Nat) (waitFor : Bool) (saved : Option S) (l : List (Ev S R)) : Att S R → Prop
  | .openError e => l = [.openFailed e] ∧ saved = none
  | .caught e => Fresh none saved l ∧ l.filterMap (failure code) = [e]
  | .done (some r) sv => waitFor = true ∧ sv = none ∧ ¬Again (code r) ∧ ∃ s, (saved = none ∧ l = [.opened s, .wrote s, .got s r]) ∨ (saved = some s ∧ l = [.got s r])
  | .done none sv => waitFor = false ∧ ∃ s, saved = none → sv = some s ∧ l = [.opened s, .wrote s]

theorem exchange_log (net : Net σ S R) (waitFor : Bool) (s : S) (w : σ × List (Ev S R)) :
    (∃ l, (exchange (traced net) waitFor true s w).2.2 = w.2 ++ l ∧ AttLog net.code waitFor none (.opened s :: l) (exchange (traced net) waitFor true s w).1) ∧
    (waitFor = true → ∃ l, (exchange (traced net) waitFor false s w).2.2 = w.2 ++ l ∧ AttLog net.code waitFor (some s) l (exchange (traced net) waitFor false s w).1) := by
  obtain ⟨w, log⟩ := w
  have hread : ∀ (w : σ) (log : List (Ev S R)), (∃ e w', (traced net).read (w, log) s = (.error e, w', log ++ [.readFailed s e])) ∨
      (∃ r w', (traced net).read (w, log) s = (.ok r, w', log ++ [.got s r])) := by
    intro w log
    simp only [traced]
    cases h : (net.read w s).1 with
    | error e => exact .inl ⟨e, (net.read w s).2, rfl⟩
    | ok r => exact .inr ⟨r, (net.read w s).2, rfl⟩
  have hcode : (traced net).code = net.code := rfl
  constructor
  · have hwrite : (∃ e w', (traced net).write (w, log) s = (.error e, w', log ++ [.writeFailed s e])) ∨ (∃ w', (traced net).write (w, log) s = (.ok (), w', log ++ [.wrote s])) := by
      simp only [traced]
      cases h : (net.write w s).1 with
      | error e => exact .inl ⟨e, (net.write w s).2, rfl⟩
      | ok r => exact .inr ⟨(net.write w s).2, rfl⟩
    unfold exchange
    rw [if_pos rfl]
    rcases hwrite with ⟨e, w', hw⟩ | ⟨w', hw⟩
    · rw [hw]
      exact ⟨[.writeFailed s e], rfl, ⟨rfl, trivial⟩, rfl⟩
    · rw [hw]
      cases waitFor with
      | false => exact ⟨[.wrote s], rfl, rfl, s, fun _ => ⟨rfl, rfl⟩⟩
      | true =>
        simp only [if_true]
        rcases hread w' (log ++ [.wrote s]) with ⟨e, w2, hr⟩ | ⟨r, w2, hr⟩
        · rw [hr]
          exact ⟨[.wrote s, .readFailed s e], by simp, ⟨rfl, rfl, trivial⟩, rfl⟩
        · rw [hr]
          simp only [hcode]
          by_cases hc : codeRetry (net.code r) = true
          · rw [if_pos hc]
            have hf : List.filterMap (failure net.code) [Ev.opened s, .wrote s, .got s r] = [Err.service] := by
              have : failure net.code (Ev.got s r) = some .service := if_pos ((again_iff _).mp hc)
              rw [List.filterMap_cons_none rfl, List.filterMap_cons_none rfl, List.filterMap_cons_some this]
              rfl
            exact ⟨[.wrote s, .got s r], List.append_assoc _ _ _, ⟨rfl, rfl, trivial⟩, hf⟩
          · rw [if_neg hc]
            exact ⟨[.wrote s, .got s r], by simp, rfl, rfl, fun h => hc ((again_iff _).mpr h), s, .inl ⟨rfl, rfl⟩⟩
  · rintro rfl
    unfold exchange
    rw [if_neg (by simp)]
    simp only [if_true]
    rcases hread w log with ⟨e, w2, hr⟩ | ⟨r, w2, hr⟩
    · rw [hr]
      exact ⟨[.readFailed s e], by simp, ⟨rfl, trivial⟩, rfl⟩
    · rw [hr]
      simp only [hcode]
      by_cases hc : codeRetry (net.code r) = true
      · rw [if_pos hc]
        exact ⟨[.got s r], by simp, ⟨rfl, trivial⟩, by simp [failure, (again_iff _).mp hc]⟩
      · rw [if_neg hc]
        exact ⟨[.got s r], by simp, rfl, rfl, fun h => hc ((again_iff _).mpr h), s, .inr ⟨rfl, rfl⟩⟩

theorem attempt_log (net : Net σ S R) (waitFor : Bool) (saved : Option S) (hs : waitFor = false → saved = none) (w : σ × List (Ev S R)) :
    ∃ l, (attempt (traced net) waitFor saved w).2.2 = w.2 ++ l ∧ AttLog net.code waitFor saved l (attempt (traced net) waitFor saved w).1 := by
  cases saved with
  | some s =>
    have : waitFor = true := by
      cases waitFor with
      | true => rfl
      | false => exact absurd (hs rfl) (by simp)
    exact (exchange_log net waitFor s w).2 this
  | none =>
    obtain ⟨w, log⟩ := w
    unfold attempt
    have hopen : (∃ e w', (traced net).opn (w, log) = (.error e, w', log ++ [.openFailed e])) ∨ (∃ s w', (traced net).opn (w, log) = (.ok s, w', log ++ [.opened s])) := by
      simp only [traced]
      cases h : (net.opn w).1 with
      | error e => exact .inl ⟨e, (net.opn w).2, rfl⟩
      | ok s => exact .inr ⟨s, (net.opn w).2, rfl⟩
    rcases hopen with ⟨e, w', ho⟩ | ⟨s, w', ho⟩
    · rw [ho]
      exact ⟨[.openFailed e], rfl, rfl, rfl⟩
    · rw [ho]
      obtain ⟨l, h1, h2⟩ := (exchange_log net waitFor s (w', log ++ [.opened s])).1
      exact ⟨.opened s :: l, by simp only [h1]; simp, h2⟩

/-- What is said of a result, where `n` failures were before. -/
def Result (code : R → Nat) (waitFor : Bool) (n : Nat) (first : Option Err) (saved : Option S) (l : List (Ev S R)) : Res (Option R × Option S) → Prop
  | .ok (some r, sv) => waitFor = true ∧ sv = none ∧ ¬Again (code r) ∧ ∃ s, (∃ m, l = m ++ [.opened s, .wrote s, .got s r]) ∨ (saved = some s ∧ l = [.got s r])
  | .ok (none, sv) => waitFor = false ∧ ∃ s m, sv = some s ∧ l = m ++ [.opened s, .wrote s]
  | .error e => (∃ m, l = m ++ [.openFailed e]) ∨ (first.or (l.filterMap (failure code)).head? = some e ∧ 3 ≤ n + (l.filterMap (failure code)).length)

theorem loop_spec (net : Net σ S R) (waitFor : Bool) {timeout now : Nat} : ∀ (fuel n : Nat) (wait : Wait.Wait) (first : Option Err) (saved : Option S) (w : σ × List (Ev S R))
    (r : Res (Option R × Option S)) (w' : σ × List (Ev S R)), Inv timeout now n wait → (waitFor = false → saved = none) →
    loop (traced net) waitFor fuel wait first saved w = some (r, w') →
    ∃ l, w'.2 = w.2 ++ l ∧ Fresh none saved l ∧ Result net.code waitFor n first saved l r := by
  intro fuel
  induction fuel with
  | zero => intro n wait first saved w r w' _ _ h; simp [loop] at h
  | succ fuel ih =>
    intro n wait first saved w r w' hi hs h
    obtain ⟨l, h1, h2⟩ := attempt_log net waitFor saved hs w
    unfold loop at h
    cases ha : attempt (traced net) waitFor saved w with
    | mk a w1 =>
      rw [ha] at h h1 h2
      simp only at h h1 h2
      cases a with
      | openError e =>
        simp only [Option.some.injEq, Prod.mk.injEq] at h
        obtain ⟨rfl, rfl⟩ := h
        obtain ⟨rfl, rfl⟩ := h2
        exact ⟨_, h1, by simp [Fresh], .inl ⟨[], rfl⟩⟩
      | done r0 sv =>
        simp only [Option.some.injEq, Prod.mk.injEq] at h
        obtain ⟨rfl, rfl⟩ := h
        cases r0 with
        | none =>
          obtain ⟨g1, s, g2⟩ := h2
          have hsn := hs g1
          obtain ⟨g3, rfl⟩ := g2 hsn
          exact ⟨_, h1, by simp [Fresh], g1, s, [], g3, rfl⟩
        | some x =>
          obtain ⟨g1, g2, g3, s, ⟨g4, rfl⟩ | ⟨g4, rfl⟩⟩ := h2
          · exact ⟨_, h1, by simp [Fresh], g1, g2, g3, s, .inl ⟨[], rfl⟩⟩
          · exact ⟨_, h1, by simp [Fresh, g4], g1, g2, g3, s, .inr ⟨g4, rfl⟩⟩
      | caught e =>
        obtain ⟨g1, g2⟩ := h2
        simp only at h
        rcases inv_step hi ((traced net).clock w1) with ⟨ms, k1, k2, k3⟩ | ⟨k1, k2, _⟩
        · cases hm : waitMore wait ((traced net).clock w1) with
          | mk a b =>
            rw [hm] at h k1 k3
            simp only at k1
            subst k1
            simp only at h
            obtain ⟨l2, m1, m2, m3⟩ := ih (n + 1) b (some (first.getD e)) none ((traced net).sleep w1 ms) r w' k3 (fun _ => rfl) h
            have hsl : ((traced net).sleep w1 ms).2 = w1.2 ++ [.slept ms] := rfl
            refine ⟨l ++ (.slept ms :: l2), by rw [m1, hsl, h1]; simp, fresh_append _ _ _ _ g1 (by simp only [Fresh]; exact m2), ?_⟩
            cases r with
            | error e' =>
              rcases m3 with ⟨m, rfl⟩ | ⟨p1, p2⟩
              · exact .inl ⟨l ++ (.slept ms :: m), by simp⟩
              · right
                rw [List.filterMap_append, g2]
                refine ⟨?_, ?_⟩
                · simp only [Option.some_or, Option.some.injEq] at p1
                  subst p1
                  cases first <;> simp
                · simp only [List.filterMap_cons, failure, List.length_append, List.length_singleton]
                  omega
            | ok x =>
              obtain ⟨ro, sv⟩ := x
              cases ro with
              | none =>
                obtain ⟨p1, s, m, p2, rfl⟩ := m3
                exact ⟨p1, s, l ++ (.slept ms :: m), p2, by simp⟩
              | some x =>
                obtain ⟨p1, p2, p3, s, ⟨m, rfl⟩ | ⟨p4, _⟩⟩ := m3
                · exact ⟨p1, p2, p3, s, .inl ⟨l ++ (.slept ms :: m), by simp⟩⟩
                · cases p4
        · cases hm : waitMore wait ((traced net).clock w1) with
          | mk a b =>
            rw [hm] at h k1
            simp only at k1
            subst k1
            simp only [Option.some.injEq, Prod.mk.injEq] at h
            obtain ⟨rfl, rfl⟩ := h
            refine ⟨l, h1, g1, .inr ⟨?_, ?_⟩⟩
            · rw [g2]; cases first <;> simp
            · rw [g2]; simp only [List.length_singleton]; omega

/-- C81: a request that was made was written as a whole to a session that was opened for it, and this is the session from which the answer will be read. If it could not be made then no session could be
opened, or it failed at least three times, and the error is the first one. -/
theorem c81_new (net : Net σ S R) (fuel timeout : Nat) (ht : 10 ≤ timeout) (w : σ) (r : Res (Option S)) (w' : σ × List (Ev S R))
    (h : requestNew (traced net) fuel timeout (w, []) = some (r, w')) : Fresh none none w'.2 ∧ match r with
      | .ok saved => ∃ s m, saved = some s ∧ w'.2 = m ++ [.opened s, .wrote s]
      | .error e => (∃ m, w'.2 = m ++ [.openFailed e]) ∨ ((w'.2.filterMap (failure net.code)).head? = some e ∧ 3 ≤ (w'.2.filterMap (failure net.code)).length) := by
  unfold requestNew at h
  cases hp : process (traced net) fuel timeout false none (w, []) with
  | none => rw [hp] at h; cases h
  | some x =>
    obtain ⟨x, w1⟩ := x
    rw [hp] at h
    obtain ⟨l, h1, h2, h3⟩ := loop_spec net false fuel 0 _ none none _ x w1 (inv_new ht) (fun _ => rfl) hp
    simp only [List.nil_append] at h1
    subst h1
    cases x with
    | error e =>
      simp only [Option.some.injEq, Prod.mk.injEq] at h
      obtain ⟨rfl, rfl⟩ := h
      refine ⟨h2, ?_⟩
      rcases h3 with h3 | ⟨p1, p2⟩
      · exact .inl h3
      · exact .inr ⟨by simpa using p1, by omega⟩
    | ok y =>
      obtain ⟨ro, sv⟩ := y
      simp only [Option.some.injEq, Prod.mk.injEq] at h
      obtain ⟨rfl, rfl⟩ := h
      refine ⟨h2, ?_⟩
      cases ro with
      | none => exact h3.2
      | some x => exact absurd h3.1 (by simp)

/-- C81: the response of a request was read from the session to which the request was written as a whole: the one that was saved, or one that was opened to write it again. It is not one that says that
the request should be sent again. If there is an error then no session could be opened, or it failed at least three times, and the error is the first one. -/
theorem c81_response (net : Net σ S R) (fuel timeout : Nat) (ht : 10 ≤ timeout) (s : S) (w : σ) (r : Res (Option R)) (w' : σ × List (Ev S R))
    (h : requestResponse (traced net) fuel timeout (some s) (w, []) = some (r, w')) : Fresh none (some s) w'.2 ∧ match r with
      | .ok none => False
      | .ok (some r) => ¬Again (net.code r) ∧ (w'.2 = [.got s r] ∨ ∃ m s', w'.2 = m ++ [.opened s', .wrote s', .got s' r])
      | .error e => (∃ m, w'.2 = m ++ [.openFailed e]) ∨ ((w'.2.filterMap (failure net.code)).head? = some e ∧ 3 ≤ (w'.2.filterMap (failure net.code)).length) := by
  unfold requestResponse at h
  cases hp : process (traced net) fuel timeout true (some s) (w, []) with
  | none => rw [hp] at h; cases h
  | some x =>
    obtain ⟨x, w1⟩ := x
    rw [hp] at h
    obtain ⟨l, h1, h2, h3⟩ := loop_spec net true fuel 0 _ none (some s) _ x w1 (inv_new ht) (fun h => by cases h) hp
    simp only [List.nil_append] at h1
    subst h1
    cases x with
    | error e =>
      simp only [Option.some.injEq, Prod.mk.injEq] at h
      obtain ⟨rfl, rfl⟩ := h
      refine ⟨h2, ?_⟩
      rcases h3 with h3 | ⟨p1, p2⟩
      · exact .inl h3
      · exact .inr ⟨by simpa using p1, by omega⟩
    | ok y =>
      obtain ⟨ro, sv⟩ := y
      simp only [Option.some.injEq, Prod.mk.injEq] at h
      obtain ⟨rfl, rfl⟩ := h
      refine ⟨h2, ?_⟩
      cases ro with
      | none => exact absurd h3.1 (by simp)
      | some x =>
        obtain ⟨_, _, p3, s', ⟨m, p⟩ | ⟨p4, p⟩⟩ := h3
        · exact ⟨p3, .inr ⟨m, s', p⟩⟩
        · cases p4
          exact ⟨p3, .inl p⟩

/-- A clock that is not set back, and sleeps that are not shorter than they should be. -/
structure Clocked (net : Net σ S R) : Prop where
  opn : ∀ w, net.clock w ≤ net.clock (net.opn w).2
  write : ∀ w s, net.clock w ≤ net.clock (net.write w s).2
  read : ∀ w s, net.clock w ≤ net.clock (net.read w s).2
  sleep : ∀ w ms, net.clock w + ms ≤ net.clock (net.sleep w ms)

theorem exchange_clock {net : Net σ S R} (h : Clocked net) (waitFor send : Bool) (s : S) (w : σ) : net.clock w ≤ net.clock (exchange net waitFor send s w).2 := by
  have hw : ∀ x, (if send then net.write w s else (.ok (), w)) = x → net.clock w ≤ net.clock x.2 := by
    intro x hx
    cases send with
    | true => rw [← hx]; exact h.write w s
    | false => rw [← hx]; exact Nat.le_refl _
  unfold exchange
  generalize hx : (if send then net.write w s else (.ok (), w) : Res Unit × σ) = x
  have h1 := hw x hx
  obtain ⟨r, w1⟩ := x
  cases r with
  | error e => exact h1
  | ok _ =>
    simp only
    cases waitFor with
    | false => exact h1
    | true =>
      have h2 := h.read w1 s
      generalize net.read w1 s = y at h2
      obtain ⟨r, w2⟩ := y
      simp only [if_true] at h1 h2 ⊢
      cases r with
      | error e => exact Nat.le_trans h1 h2
      | ok r =>
        simp only
        split <;> exact Nat.le_trans h1 h2

theorem attempt_clock {net : Net σ S R} (h : Clocked net) (waitFor : Bool) (saved : Option S) (w : σ) : net.clock w ≤ net.clock (attempt net waitFor saved w).2 := by
  unfold attempt
  cases saved with
  | some s => exact exchange_clock h waitFor false s w
  | none =>
    have h1 := h.opn w
    generalize net.opn w = x at h1
    obtain ⟨r, w1⟩ := x
    cases r with
    | error e => exact h1
    | ok s => exact Nat.le_trans h1 (exchange_clock h waitFor true s w1)

theorem loop_ends {net : Net σ S R} (h : Clocked net) (waitFor : Bool) {timeout now N : Nat} (hN : 2 ≤ N) (hb : timeout ≤ unit timeout * (Nat.fib (N + 3) - 2)) :
    ∀ (fuel n : Nat) (wait : Wait.Wait) (first : Option Err) (saved : Option S) (w : σ) (next : Nat), Fib timeout now n wait next → next ≤ net.clock w → n ≤ N → N + 1 ≤ n + fuel →
    loop net waitFor fuel wait first saved w ≠ none := by
  intro fuel
  induction fuel with
  | zero => intro n wait first saved w next _ _ h1 h2; omega
  | succ fuel ih =>
    intro n wait first saved w next hf hnext hn hfuel
    have hc := attempt_clock h waitFor saved w
    unfold loop
    generalize attempt net waitFor saved w = x at hc
    obtain ⟨a, w1⟩ := x
    cases a with
    | openError e => simp
    | done r sv => simp
    | caught e =>
      simp only at hc ⊢
      rcases fib_step hf (Nat.le_trans hnext hc) with ⟨ms, k1, k2, _⟩ | ⟨k1, _⟩
      · by_cases hlast : n = N
        · subst hlast
          exfalso
          have hlate : now + timeout ≤ net.clock w1 := by
            rcases hf.sleep with ⟨_, _, a⟩ | a <;> omega
          have hsub : sub (net.clock w1) now = net.clock w1 - now := sub_le (by omega)
          rw [more_end hf.inv.sleep (by rw [hf.inv.waitTime, hf.inv.beginTime, hsub]; omega) (by rw [hf.inv.retry]; omega)] at k1
          cases k1
        · generalize waitMore wait (net.clock w1) = y at k1 k2
          obtain ⟨a, b⟩ := y
          simp only at k1
          subst k1
          exact ih (n + 1) b _ none _ _ k2 (h.sleep w1 ms) (by omega) (by omega)
      · generalize waitMore wait (net.clock w1) = y at k1
        obtain ⟨a, b⟩ := y
        simp only at k1
        subst k1
        simp

/-- C81: if the clock is not set back then a request ends, with at most `N` retries, where the first `N` sleep times are together not less than the timeout. -/
theorem c81_ends (net : Net σ S R) (h : Clocked net) (timeout N fuel : Nat) (ht : 10 ≤ timeout) (hN : 2 ≤ N) (hb : timeout ≤ unit timeout * (Nat.fib (N + 3) - 2)) (hfuel : N < fuel)
    (saved : Option S) (w : σ) : requestNew net fuel timeout w ≠ none ∧ requestResponse net fuel timeout saved w ≠ none := by
  have key : ∀ waitFor saved, process net fuel timeout waitFor saved w ≠ none := by
    intro waitFor saved
    exact loop_ends h waitFor hN hb fuel 0 _ none saved w _ (fib_new ht) (Nat.le_refl _) (by omega) (by omega)
  constructor
  · unfold requestNew
    have := key false none
    split <;> simp_all
  · unfold requestResponse
    have := key true saved
    split <;> simp_all

/-! ## Examples -/

/-- A network that numbers its sessions, has a clock, and answers with the codes that it is given. -/
def exampleNet : Net (Nat × Nat × List Nat) Nat Nat where
  opn := fun (k, t, cs) => (.ok k, k + 1, t, cs)
  write := fun w _ => (.ok (), w)
  read := fun (k, t, cs) _ => match cs with
    | [] => (.error .fileRead, k, t, cs)
    | c :: cs => (.ok c, k, t, cs)
  code := id
  clock := fun (_, t, _) => t
  sleep := fun (k, t, cs) ms => (k, t + ms, cs)

example : Clocked exampleNet where
  opn _ := Nat.le_refl _
  write _ _ := Nat.le_refl _
  read := by rintro ⟨k, t, cs⟩ s; cases cs <;> exact Nat.le_refl _
  sleep _ _ := Nat.le_refl _

/-- With a timeout of a minute 13 attempts are enough. -/
example : 60000 ≤ unit 60000 * (Nat.fib (12 + 3) - 2) := by decide +kernel

example : (requestNew (traced exampleNet) 20 1000 ((7, 0, [503, 200]), [])).map (fun x => (x.1.toOption, x.2.2)) = some (some (some 7), [.opened 7, .wrote 7]) := by decide +kernel
example : (requestResponse (traced exampleNet) 20 1000 (some 7) ((8, 0, [503, 200]), [])).map (fun x => (x.1.toOption, x.2.2)) =
    some (some (some 200), [.got 7 503, .slept 100, .opened 8, .wrote 8, .got 8 200]) := by decide +kernel
example : (requestResponse (traced exampleNet) 20 1000 (some 7) ((8, 0, [503]), [])).map (fun x => (match x.1 with | .error e => some e | _ => none, (x.2.2.filterMap (failure id)).length)) =
    some (some .service, 5) := by decide +kernel

/-- C81: a request that was received but answered with an error of the service, or of which the answer was lost, is sent again, whatever its verb: the service gets it twice. -/
theorem c81_sent_twice : ((requestNew (traced exampleNet) 20 1000 ((7, 0, [500, 200]), [])).bind fun x => requestResponse (traced exampleNet) 20 1000 (some 7) x.2).map (·.2.2) =
    some [.opened 7, .wrote 7, .got 7 500, .slept 100, .opened 8, .wrote 8, .got 8 200] := by decide +kernel

end Verif.Http.Process
