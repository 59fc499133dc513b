import Verif.Protocol.ServerLemmas
import Verif.Protocol.Props

/-!
# C71: the server keeps the sessions apart and gives them up

Properties of `protocolServerProcess` (src/protocol/server.c 195-503), alone and together with the client.
-/

namespace Verif.Protocol

variable {α D W : Type}

/-! ## Where the specification says nothing -/

theorem attempt_undefined {h : Handler α D W} {sv : Server D W} {st : Spec.Srv D W} {q : Req α} (hr : SRelS sv st)
    (ht : Spec.tryOnce h st q = none) : attempt h sv q = .ub := by
  unfold Spec.tryOnce at ht
  by_cases hty : q.type = .opn
  · rw [if_pos hty] at ht
    unfold attempt
    simp only [hty]
    unfold attemptOpen
    cases ho : h.opn with
    | none => rfl
    | some f =>
      simp only [ho] at ht
      rcases hres : f st.world q.param with ⟨w, (e | ⟨data, d⟩)⟩ <;> simp [hres] at ht
  · rw [if_neg hty] at ht
    have hat : attempt h sv q = attemptSession h sv q := by
      unfold attempt
      cases h1 : q.type <;> simp_all
    have hfound : ∀ d idx, Spec.tryIn h st q d = none → attemptFound h sv q idx d = .ub := by
      intro d idx hin
      unfold Spec.tryIn at hin
      unfold attemptFound
      cases h1 : q.type with
      | opn => exact absurd h1 hty
      | cnc => simp [h1] at hin
      | cls =>
        simp only [h1] at hin
        cases hc : h.cls with
        | none => simp [hc] at hin
        | some f =>
          simp only [hc] at hin
          rcases hres : f st.world q.param d with ⟨w, d', (e | out)⟩ <;> simp [hres] at hin
      | prc =>
        simp only [h1] at hin ⊢
        unfold attemptProcess
        cases hp : h.prcSession with
        | some f =>
          simp only [hp] at hin
          rcases hres : f st.world q.param d with ⟨w, d', (e | ⟨out, (_ | _)⟩)⟩ <;> simp [hres] at hin
        | none =>
          cases hpp : h.prc with
          | none => rfl
          | some f =>
            simp only [hp, hpp] at hin
            rcases hres : f st.world q.param with ⟨w, (e | out)⟩ <;> simp [hres] at hin
    rw [hat]
    unfold attemptSession
    split at ht
    · exact absurd ht (by simp)
    · rename_i hg
      cases hop : q.isOpen with
      | false =>
        simp only [hop] at ht
        rw [if_neg (by simp)]
        exact hfound _ _ ht
      | true =>
        simp only [hop, if_true] at ht
        rw [if_pos rfl]
        cases hs : st.sess q.sessionId with
        | none =>
          have hc : q.type = .cnc := by
            refine Decidable.byContradiction fun hc => ?_
            exact hg (by simp [hop, hs, hc])
          rw [hs] at ht
          simp [Spec.tryIn, hc] at ht
        | some d =>
          obtain ⟨l1, l2, hl, h1, h2⟩ := hr.split hs
          have hf : findSession sv.list q.sessionId = l1.length := by rw [hl]; exact findSession_split h1
          have hg : sv.list[findSession sv.list q.sessionId]? = some (q.sessionId, d) := by rw [hf, hl]; simp
          rw [hg]
          rw [hs] at ht
          exact hfound _ _ ht

theorem retryLoop_undefined {h : Handler α D W} (hok : Spec.HandlerOk h) {q : Req α} :
    ∀ {n : Nat} {sv : Server D W} {st : Spec.Srv D W} {errs : Option (SErr × List SErr)} {l : List SErr},
      SRelS sv st → Spec.Fair st q → Spec.tries h q n st l = none → retryLoop h q n sv errs = .ub := by
  intro n
  induction n with
  | zero =>
    intro sv st errs l hr hfair ht
    unfold Spec.tries at ht
    unfold retryLoop
    cases hto : Spec.tryOnce h st q with
    | none => rw [attempt_undefined hr hto]
    | some t =>
      cases t with
      | done a b c => simp [hto] at ht
      | failed a e =>
        simp only [hto] at ht
        split at ht
        · exact absurd ht (by simp)
        · cases l <;> simp at ht
  | succ n ih =>
    intro sv st errs l hr hfair ht
    unfold Spec.tries at ht
    unfold retryLoop
    cases hto : Spec.tryOnce h st q with
    | none => rw [attempt_undefined hr hto]
    | some t =>
      have hsim := attempt_sim hok hr hfair hto
      cases t with
      | done a b c => simp [hto] at ht
      | failed st' e =>
        simp only [hto] at ht
        cases hat : attempt h sv q with
        | reply sv' c d => rw [hat] at hsim; exact hsim.elim
        | ub => rfl
        | fail sv' e' =>
          rw [hat] at hsim
          obtain ⟨h1, rfl⟩ := hsim
          simp only
          split at ht
          · exact absurd ht (by simp)
          · rename_i hfa
            rw [if_neg hfa]
            exact ih h1 (fair_failed hok hfair hto) ht

/-- The answer to every request that a client may make, and the sessions after it, are those of a server that has at most one session
under each number and no list. Where that server has no answer, the handler that is needed is missing. -/
theorem c71_sessions (handlers : List (Handler α D W)) (retries : Nat) (hok : ∀ h ∈ handlers, Spec.HandlerOk h)
    (sv : Server D W) (st : Spec.Srv D W) (q : Req α) (hr : SRelS sv st) (hfair : Spec.Fair st q) :
    match Spec.serve handlers retries st q with
    | some o => OutRel (serve handlers retries sv q) o
    | none => serve handlers retries sv q = .ub := by
  cases ht : Spec.serve handlers retries st q with
  | some o => exact serve_sim hok hr hfair ht
  | none =>
    simp only
    unfold Spec.serve at ht
    unfold serve
    have hfe : (fun h : Handler α D W => q.command == h.command) = (fun h => h.command == q.command) := by
      funext h; exact Bool.beq_comm
    rw [hfe]
    cases hf : handlers.find? (fun h => h.command == q.command) with
    | some h =>
      simp only [hf] at ht ⊢
      exact retryLoop_undefined (hok h (List.mem_of_find?_eq_some hf)) hr hfair ht
    | none =>
      simp only [hf] at ht
      split at ht
      · exact absurd ht (by simp)
      · split at ht <;> exact absurd ht (by simp)

/-- A handler that can be asked this. -/
def Spec.Can (h : Handler α D W) (q : Req α) : Prop :=
  (q.type = .opn → h.opn.isSome) ∧ (q.type = .prc → h.prcSession.isSome ∨ h.prc.isSome)

theorem tries_defined {h : Handler α D W} {q : Req α} (hc : Spec.Can h q) :
    ∀ {n : Nat} {st : Spec.Srv D W} {l : List SErr}, Spec.tries h q n st l ≠ none := by
  have once : ∀ st : Spec.Srv D W, Spec.tryOnce h st q ≠ none := by
    intro st ht
    unfold Spec.tryOnce at ht
    split at ht
    · rename_i hty
      have := hc.1 hty
      cases ho : h.opn with
      | none => simp [ho] at this
      | some f =>
        simp only [ho] at ht
        rcases hres : f st.world q.param with ⟨w, (e | ⟨data, d⟩)⟩ <;> simp [hres] at ht
    · rename_i hty
      split at ht
      · exact absurd ht (by simp)
      · generalize (if q.isOpen = true then st.sess q.sessionId else none) = d at ht
        unfold Spec.tryIn at ht
        cases h1 : q.type with
        | opn => exact absurd h1 hty
        | cnc => simp [h1] at ht
        | cls =>
          simp only [h1] at ht
          cases hcl : h.cls with
          | none => simp [hcl] at ht
          | some f =>
            simp only [hcl] at ht
            rcases hres : f st.world q.param d with ⟨w, d', (e | out)⟩ <;> simp [hres] at ht
        | prc =>
          simp only [h1] at ht
          have := hc.2 h1
          cases hp : h.prcSession with
          | some f =>
            simp only [hp] at ht
            rcases hres : f st.world q.param d with ⟨w, d', (e | ⟨out, (_ | _)⟩)⟩ <;> simp [hres] at ht
          | none =>
            cases hpp : h.prc with
            | none => simp [hp, hpp] at this
            | some f =>
              simp only [hp, hpp] at ht
              rcases hres : f st.world q.param with ⟨w, (e | out)⟩ <;> simp [hres] at ht
  intro n
  induction n with
  | zero =>
    intro st l ht
    unfold Spec.tries at ht
    cases hto : Spec.tryOnce h st q with
    | none => exact once st hto
    | some t =>
      cases t with
      | done a b c => simp [hto] at ht
      | failed a e =>
        simp only [hto] at ht
        split at ht
        · exact absurd ht (by simp)
        · cases l <;> simp at ht
  | succ n ih =>
    intro st l ht
    unfold Spec.tries at ht
    cases hto : Spec.tryOnce h st q with
    | none => exact once st hto
    | some t =>
      cases t with
      | done a b c => simp [hto] at ht
      | failed a e =>
        simp only [hto] at ht
        split at ht
        · exact absurd ht (by simp)
        · exact ih ht

/-- No request that a client may make has undefined behaviour when the handler can be asked it. -/
theorem c71_defined (handlers : List (Handler α D W)) (retries : Nat) (hok : ∀ h ∈ handlers, Spec.HandlerOk h)
    (sv : Server D W) (st : Spec.Srv D W) (q : Req α) (hr : SRelS sv st) (hfair : Spec.Fair st q)
    (hcan : ∀ h ∈ handlers, h.command = q.command → Spec.Can h q) : serve handlers retries sv q ≠ .ub := by
  have h := c71_sessions handlers retries hok sv st q hr hfair
  have hd : Spec.serve handlers retries st q ≠ none := by
    unfold Spec.serve
    cases hf : handlers.find? (fun h => h.command == q.command) with
    | some h =>
      have h2 := List.find?_some hf
      simp only [beq_iff_eq] at h2
      exact tries_defined (hcan h (List.mem_of_find?_eq_some hf) h2)
    | none =>
      simp only
      split
      · simp
      · split <;> simp
  cases ho : Spec.serve handlers retries st q with
  | none => exact absurd ho hd
  | some o =>
    rw [ho] at h
    intro hu
    simp only [hu] at h
    cases o <;> exact h.elim

/-! ## What a request leaves alone -/

theorem tries_frame {h : Handler α D W} (hok : Spec.HandlerOk h) {q : Req α} :
    ∀ {n : Nat} {st st' : Spec.Srv D W} {l : List SErr} {close : Bool} {msg : Msg α}, Spec.Fair st q →
      Spec.tries h q n st l = some (.reply st' close msg) →
      (∀ k, k ≠ q.sessionId → st'.sess k = st.sess k) ∧ (close = true → st'.sess q.sessionId = none) ∧
        ((st'.sess q.sessionId).isSome = true → q.type = .opn ∨ (st.sess q.sessionId).isSome = true) := by
  intro n
  induction n with
  | zero =>
    intro st st' l close msg hfair ht
    unfold Spec.tries at ht
    cases hto : Spec.tryOnce h st q with
    | none => simp [hto] at ht
    | some t =>
      have hf := tryOnce_frame hok hfair hto
      cases t with
      | done a b c =>
        simp only [hto, Option.some.injEq, SOut.reply.injEq] at ht
        obtain ⟨rfl, rfl, rfl⟩ := ht
        obtain ⟨g1, g2, g3, g4, _⟩ := hf
        refine ⟨g1, g2, fun hs => ?_⟩
        by_cases hty : q.type = .opn
        · exact .inl hty
        · cases b with
          | true => rw [g2 rfl] at hs; exact absurd hs (by simp)
          | false => exact .inr (by rw [← g3 rfl hty]; exact hs)
      | failed a e =>
        simp only [hto] at ht
        split at ht
        · exact absurd ht (by simp)
        · have h2 : a = st' ∧ close = false := by
            cases l <;> simp_all
          obtain ⟨rfl, rfl⟩ := h2
          exact ⟨hf.1, by simp, fun hs => .inr (by rw [← hf.2]; exact hs)⟩
  | succ n ih =>
    intro st st' l close msg hfair ht
    unfold Spec.tries at ht
    cases hto : Spec.tryOnce h st q with
    | none => simp [hto] at ht
    | some t =>
      have hf := tryOnce_frame hok hfair hto
      cases t with
      | done a b c =>
        simp only [hto, Option.some.injEq, SOut.reply.injEq] at ht
        obtain ⟨rfl, rfl, rfl⟩ := ht
        obtain ⟨g1, g2, g3, g4, _⟩ := hf
        refine ⟨g1, g2, fun hs => ?_⟩
        by_cases hty : q.type = .opn
        · exact .inl hty
        · cases b with
          | true => rw [g2 rfl] at hs; exact absurd hs (by simp)
          | false => exact .inr (by rw [← g3 rfl hty]; exact hs)
      | failed a e =>
        simp only [hto] at ht
        split at ht
        · exact absurd ht (by simp)
        · obtain ⟨g1, g2, g3⟩ := ih (fair_failed hok hfair hto) ht
          refine ⟨fun k hk => (g1 k hk).trans (hf.1 k hk), g2, fun hs => ?_⟩
          rcases g3 hs with h1 | h1
          · exact .inl h1
          · exact .inr (by rw [← hf.2]; exact h1)

theorem serve_frame {handlers : List (Handler α D W)} {retries : Nat} (hok : ∀ h ∈ handlers, Spec.HandlerOk h) {q : Req α}
    {st st' : Spec.Srv D W} {close : Bool} {msg : Msg α} (hfair : Spec.Fair st q)
    (ht : Spec.serve handlers retries st q = some (.reply st' close msg)) :
    (∀ k, k ≠ q.sessionId → st'.sess k = st.sess k) ∧ (close = true → st'.sess q.sessionId = none) ∧
      ((st'.sess q.sessionId).isSome = true → q.type = .opn ∨ (st.sess q.sessionId).isSome = true) := by
  unfold Spec.serve at ht
  cases hf : handlers.find? (fun h => h.command == q.command) with
  | some h =>
    simp only [hf] at ht
    exact tries_frame (hok h (List.mem_of_find?_eq_some hf)) hfair ht
  | none =>
    simp only [hf] at ht
    split at ht
    · exact absurd ht (by simp)
    · split at ht
      · simp only [Option.some.injEq, SOut.reply.injEq] at ht
        obtain ⟨rfl, rfl, _⟩ := ht
        exact ⟨fun _ _ => rfl, by simp, fun h => .inr h⟩
      · exact absurd ht (by simp)

/-- The sessions of a list. -/
def ofServer (sv : Server D W) : Spec.Srv D W := ⟨fun k => (sv.list.find? (fun x => x.1 == k)).map (·.2), sv.world⟩

theorem find_mem {k : Nat} {d : D} : ∀ {l : List (Nat × D)}, (l.map (·.1)).Nodup →
    ((k, d) ∈ l ↔ (l.find? (fun x => x.1 == k)).map (·.2) = some d)
  | [], _ => by simp
  | x :: l, hn => by
    rw [List.map_cons, List.nodup_cons] at hn
    obtain ⟨xk, xd⟩ := x
    by_cases hk : xk = k
    · subst hk
      simp only [List.mem_cons, Prod.mk.injEq, true_and, List.find?_cons, beq_self_eq_true, Option.map_some, Option.some.injEq]
      constructor
      · rintro (h | h)
        · exact h.symm
        · exact absurd (List.mem_map_of_mem h) hn.1
      · intro h; exact .inl h.symm
    · rw [List.find?_cons]
      have : ((xk, xd).1 == k) = false := by simp [hk]
      rw [this, ← find_mem hn.2]
      simp [Ne.symm hk]

theorem ofServer_rel {sv : Server D W} (hn : (sv.list.map (·.1)).Nodup) : SRelS sv (ofServer sv) :=
  ⟨rfl, hn, fun _ _ => find_mem hn⟩

/-- A request as a client makes it, in terms of the list. -/
def FairList (sv : Server D W) (q : Req α) : Prop :=
  (q.isOpen = false → ∀ d, (q.sessionId, d) ∉ sv.list) ∧ (q.type = .cls → q.isOpen = true) ∧ (q.type = .opn → q.isOpen = false)

/-- A request changes no session but its own: the others are there as before, with the same data. When the answer says that the
session was closed, it is gone. A session is there only if it was before or the request was to open it. No number is there twice. -/
theorem c71_isolated (handlers : List (Handler α D W)) (retries : Nat) (hok : ∀ h ∈ handlers, Spec.HandlerOk h)
    (sv sv' : Server D W) (q : Req α) (close : Bool) (msg : Msg α) (hn : (sv.list.map (·.1)).Nodup) (hfair : FairList sv q)
    (hs : serve handlers retries sv q = .reply sv' close msg) :
    (sv'.list.map (·.1)).Nodup ∧ (∀ k d, k ≠ q.sessionId → ((k, d) ∈ sv'.list ↔ (k, d) ∈ sv.list)) ∧
      (close = true → ∀ d, (q.sessionId, d) ∉ sv'.list) ∧
      (∀ d, (q.sessionId, d) ∈ sv'.list → q.type = .opn ∨ ∃ d, (q.sessionId, d) ∈ sv.list) := by
  have hr := ofServer_rel hn
  have hf : Spec.Fair (ofServer sv) q := by
    refine ⟨fun ho => ?_, hfair.2⟩
    cases hd : (ofServer sv).sess q.sessionId with
    | none => rfl
    | some d => exact absurd ((hr.mem _ _).mpr hd) (hfair.1 ho d)
  have h := c71_sessions handlers retries hok sv (ofServer sv) q hr hf
  cases ho : Spec.serve handlers retries (ofServer sv) q with
  | none => rw [ho] at h; simp only [hs] at h; exact absurd h (by simp)
  | some o =>
    rw [ho] at h
    simp only [hs] at h
    cases o with
    | reply st' c m =>
      obtain ⟨h1, rfl, rfl⟩ := h
      obtain ⟨g1, g2, g3⟩ := serve_frame hok hf ho
      refine ⟨h1.nodup, fun k d hk => ?_, fun hc d hd => ?_, fun d hd => ?_⟩
      · rw [h1.mem, hr.mem, g1 k hk]
      · rw [h1.mem, g2 hc] at hd; exact absurd hd (by simp)
      · rw [h1.mem] at hd
        rcases g3 (by simp [hd]) with h2 | h2
        · exact .inl h2
        · obtain ⟨d', hd'⟩ := Option.isSome_iff_exists.mp h2
          exact .inr ⟨d', (hr.mem _ _).mpr hd'⟩
    | exit s => exact h.elim
    | fatal e => exact h.elim
    | ub => exact h.elim

/-- Cancelling always succeeds and closes, whether the session is known or not, and calls no handler. -/
theorem c71_cancel (handlers : List (Handler α D W)) (retries : Nat) (hok : ∀ h ∈ handlers, Spec.HandlerOk h)
    (sv : Server D W) (h : Handler α D W) (id : Nat) (param : Option α) (hn : (sv.list.map (·.1)).Nodup)
    (hh : handlers.find? (fun x => x.command == h.command) = some h) :
    ∃ sv', serve handlers retries sv ⟨h.command, .cnc, id, true, param⟩ = .reply sv' true (.data none) ∧
      sv'.world = sv.world ∧ ∀ k d, (k, d) ∈ sv'.list ↔ k ≠ id ∧ (k, d) ∈ sv.list := by
  have hr := ofServer_rel hn
  have hf : Spec.Fair (ofServer sv) (⟨h.command, .cnc, id, true, param⟩ : Req α) := ⟨by simp, by simp, by simp⟩
  have hs := c71_sessions handlers retries hok sv (ofServer sv) ⟨h.command, .cnc, id, true, param⟩ hr hf
  have he : Spec.serve handlers retries (ofServer sv) ⟨h.command, .cnc, id, true, param⟩ =
      some (.reply ((ofServer sv).put id none) true (.data none)) := by
    unfold Spec.serve
    simp only [hh]
    unfold Spec.tries Spec.tryOnce Spec.tryIn
    simp
  rw [he] at hs
  simp only at hs
  cases ho : serve handlers retries sv ⟨h.command, .cnc, id, true, param⟩ with
  | reply sv' c m =>
    rw [ho] at hs
    obtain ⟨h1, rfl, rfl⟩ := hs
    refine ⟨sv', rfl, h1.world, fun k d => ?_⟩
    rw [h1.mem, hr.mem]
    by_cases hk : k = id <;> simp [Spec.Srv.put, hk]
  | exit s => rw [ho] at hs; exact hs.elim
  | fatal e => rw [ho] at hs; exact hs.elim
  | ub => rw [ho] at hs; exact hs.elim

/-! ## Retries -/

/-- Tries that fail one after the other, with errors that do not end the process. -/
inductive Fails (h : Handler α D W) (q : Req α) : Server D W → List SErr → Server D W → Prop where
  | nil (sv : Server D W) : Fails h q sv [] sv
  | cons {sv sv' sv'' : Server D W} {e : SErr} {es : List SErr} (h1 : attempt h sv q = .fail sv' e) (h2 : e.fatal = false)
    (h3 : Fails h q sv' es sv'') : Fails h q sv (e :: es) sv''

/-- The errors collected so far, as a list. -/
def collected : Option (SErr × List SErr) → List SErr
  | none => []
  | some (a, b) => a :: b

theorem retry_loop {h : Handler α D W} {q : Req α} : ∀ {n : Nat} {sv : Server D W} {errs : Option (SErr × List SErr)},
    ∃ es sv1, Fails h q sv es sv1 ∧
      ((es.length ≤ n ∧ ∃ sv' close d, attempt h sv1 q = .reply sv' close d ∧ retryLoop h q n sv errs = .reply sv' close (.data d)) ∨
       (es.length ≤ n ∧ ∃ sv' e, attempt h sv1 q = .fail sv' e ∧ e.fatal = true ∧ retryLoop h q n sv errs = .fatal e) ∨
       (es.length ≤ n ∧ attempt h sv1 q = .ub ∧ retryLoop h q n sv errs = .ub) ∨
       (es.length = n + 1 ∧ ∃ a b, collected errs ++ es = a :: b ∧ retryLoop h q n sv errs = .reply sv1 false (.err a b)))
  | n, sv, errs => by
    cases hat : attempt h sv q with
    | ub => exact ⟨[], sv, .nil _, .inr (.inr (.inl ⟨by simp, hat, by unfold retryLoop; simp [hat]⟩))⟩
    | reply sv' c d => exact ⟨[], sv, .nil _, .inl ⟨by simp, sv', c, d, hat, by unfold retryLoop; simp [hat]⟩⟩
    | fail sv' e =>
      cases hfa : e.fatal with
      | true => exact ⟨[], sv, .nil _, .inr (.inl ⟨by simp, sv', e, hat, hfa, by unfold retryLoop; simp [hat, hfa]⟩)⟩
      | false =>
        cases n with
        | zero =>
          refine ⟨[e], sv', .cons hat hfa (.nil _), .inr (.inr (.inr ⟨by simp, (errAdd errs e).1, (errAdd errs e).2, ?_, ?_⟩))⟩
          · rcases errs with _ | ⟨a, b⟩ <;> simp [collected, errAdd]
          · unfold retryLoop; simp [hat, hfa]
        | succ n =>
          obtain ⟨es, sv1, h1, h2⟩ := retry_loop (h := h) (q := q) (n := n) (sv := sv') (errs := some (errAdd errs e))
          have hl : retryLoop h q (n + 1) sv errs = retryLoop h q n sv' (some (errAdd errs e)) := by
            refine (retryLoop.eq_def h q (n + 1) sv errs).trans ?_
            simp [hat, hfa]
          have hcol : collected (some (errAdd errs e)) = collected errs ++ [e] := by
            rcases errs with _ | ⟨a, b⟩ <;> simp [collected, errAdd]
          refine ⟨e :: es, sv1, .cons hat hfa h1, ?_⟩
          rw [hl]
          rcases h2 with ⟨g1, g2⟩ | ⟨g1, g2⟩ | ⟨g1, g2⟩ | ⟨g1, a, b, g2, g3⟩
          · exact .inl ⟨by simp; exact g1, g2⟩
          · exact .inr (.inl ⟨by simp; exact g1, g2⟩)
          · exact .inr (.inr (.inl ⟨by simp; exact g1, g2⟩))
          · refine .inr (.inr (.inr ⟨by simp; exact g1, a, b, ?_, g3⟩))
            rw [hcol, List.append_assoc] at g2
            exact g2

/-- A handler is called again only after it failed, and at most as often as retries are configured. The answer is the data of the try
that succeeded, or, when all failed, an error that has the first error and then all others in order. A fatal error is not tried
again. -/
theorem c71_retry (handlers : List (Handler α D W)) (retries : Nat) (sv : Server D W) (q : Req α) (h : Handler α D W)
    (hh : handlers.find? (fun x => q.command == x.command) = some h) :
    ∃ es sv1, Fails h q sv es sv1 ∧
      ((es.length ≤ retries ∧ ∃ sv' close d, attempt h sv1 q = .reply sv' close d ∧
          serve handlers retries sv q = .reply sv' close (.data d)) ∨
       (es.length ≤ retries ∧ ∃ sv' e, attempt h sv1 q = .fail sv' e ∧ e.fatal = true ∧ serve handlers retries sv q = .fatal e) ∨
       (es.length ≤ retries ∧ attempt h sv1 q = .ub ∧ serve handlers retries sv q = .ub) ∨
       (es.length = retries + 1 ∧ ∃ a b, es = a :: b ∧ serve handlers retries sv q = .reply sv1 false (.err a b))) := by
  have hs : serve handlers retries sv q = retryLoop h q retries sv none := by unfold serve; rw [hh]
  rw [hs]
  exact retry_loop

/-! ## Client and server together -/

/-- Every session on the server belongs to a session that the client still uses and takes for open. -/
structure Owned (st : Spec.St (Server D W) α) : Prop where
  nodup : (st.server.list.map (·.1)).Nodup
  own : ∀ k d, (k, d) ∈ st.server.list → ∃ s, st.sess k = some s ∧ s.ended = false ∧ s.isOpen = true ∧
    ∀ p, s.pending = some p → p.close = false
  fresh : ∀ k, st.total < k → st.sess k = none
  started : ∀ k s, st.sess k = some s → s.isOpen = true → s.started = true

variable {handlers : List (Handler α D W)} {retries : Nat}

/-- What is known after a request was answered. -/
structure Asked (st st1 : Spec.St (Server D W) α) (id : Nat) (type : CmdType) (close : Bool) : Prop where
  sess : st1.sess = st.sess
  total : st1.total = st.total
  nodup : (st1.server.list.map (·.1)).Nodup
  other : ∀ k d, k ≠ id → ((k, d) ∈ st1.server.list ↔ (k, d) ∈ st.server.list)
  closed : close = true → ∀ d, (id, d) ∉ st1.server.list
  here : ∀ d, (id, d) ∈ st1.server.list → type = .opn ∨ ∃ d, (id, d) ∈ st.server.list

theorem ask_owned (hok : ∀ h ∈ handlers, Spec.HandlerOk h) {st st1 : Spec.St (Server D W) α} {q : Req α} {close : Bool} {msg : Msg α}
    (ho : Owned st) (hfair : FairList st.server q) (ha : Spec.ask (serve handlers retries) st q = some (st1, close, msg)) :
    Asked st st1 q.sessionId q.type close := by
  unfold Spec.ask at ha
  cases hs : serve handlers retries st.server q with
  | reply sv' c m =>
    simp only [hs, Option.some.injEq, Prod.mk.injEq] at ha
    obtain ⟨rfl, rfl, rfl⟩ := ha
    obtain ⟨g1, g2, g3, g4⟩ := c71_isolated handlers retries hok st.server sv' q c m ho.nodup hfair hs
    exact ⟨rfl, rfl, g1, g2, g3, g4⟩
  | exit s => simp [hs] at ha
  | fatal e => simp [hs] at ha
  | ub => simp [hs] at ha

/-- One session changes. -/
theorem Owned.put {st st1 st2 : Spec.St (Server D W) α} {id : Nat} {x : Option (Spec.Sess α)} (ho : Owned st)
    (hnodup : (st1.server.list.map (·.1)).Nodup) (hother : ∀ k d, k ≠ id → ((k, d) ∈ st1.server.list ↔ (k, d) ∈ st.server.list))
    (hhere : ∀ d, (id, d) ∈ st1.server.list → ∃ s, x = some s ∧ s.ended = false ∧ s.isOpen = true ∧
      ∀ p, s.pending = some p → p.close = false)
    (hstart : ∀ s, x = some s → s.isOpen = true → s.started = true) (hle : x ≠ none → id ≤ st2.total) (htot : st.total ≤ st2.total)
    (hserver : st2.server = st1.server) (hsess : st2.sess = fun k => if k = id then x else st.sess k) : Owned st2 := by
  refine ⟨by rw [hserver]; exact hnodup, fun k d hm => ?_, fun k hk => ?_, fun k s hs hop => ?_⟩
  · rw [hserver] at hm
    rw [hsess]
    by_cases hkd : k = id
    · subst hkd
      obtain ⟨s, h1, h2⟩ := hhere d hm
      exact ⟨s, by simp [h1], h2⟩
    · rw [hother k d hkd] at hm
      obtain ⟨s, h1, h2⟩ := ho.own k d hm
      exact ⟨s, by simp [hkd, h1], h2⟩
  · rw [hsess]
    by_cases hkd : k = id
    · subst hkd
      simp only [if_true]
      cases hx : x with
      | none => rfl
      | some y =>
        have := hle (by simp [hx])
        omega
    · simp only [if_neg hkd]
      exact ho.fresh k (by omega)
  · rw [hsess] at hs
    by_cases hkd : k = id
    · subst hkd
      simp only [if_true] at hs
      exact hstart s hs hop
    · simp only [if_neg hkd] at hs
      exact ho.started k s hs hop

theorem Owned.le {st : Spec.St (Server D W) α} (ho : Owned st) {id : Nat} {s : Spec.Sess α} (hs : st.sess id = some s) :
    id ≤ st.total := by
  refine Nat.le_of_not_lt fun h => ?_
  rw [ho.fresh id h] at hs
  exact absurd hs (by simp)

/-- A session on the server is the one the client has. -/
theorem Owned.same {st : Spec.St (Server D W) α} (ho : Owned st) {id : Nat} {s : Spec.Sess α} {d : D} (hs : st.sess id = some s)
    (hm : (id, d) ∈ st.server.list) : s.ended = false ∧ s.isOpen = true ∧ ∀ p, s.pending = some p → p.close = false := by
  obtain ⟨s', h1, h2⟩ := ho.own id d hm
  rw [hs, Option.some.injEq] at h1
  subst h1
  exact h2

/-- Ending a session: afterwards the server does not have it. -/
theorem finish_owned (hok : ∀ h ∈ handlers, Spec.HandlerOk h) {st st' : Spec.St (Server D W) α} {id : Nat} {s : Spec.Sess α}
    (ho : Owned st) (hle : id ≤ st.total) (hopen : ∀ d, (id, d) ∈ st.server.list → s.isOpen = true)
    (h : Spec.finish (serve handlers retries) st id s = some st') :
    Owned st' ∧ (∀ d, (id, d) ∉ st'.server.list) := by
  unfold Spec.finish at h
  by_cases hop : s.isOpen = true
  · rw [if_pos hop] at h
    cases ha : Spec.ask (serve handlers retries) st ⟨s.command, .cnc, id, true, none⟩ with
    | none => simp [ha] at h
    | some r =>
      obtain ⟨st1, close, msg⟩ := r
      have hf : FairList st.server (⟨s.command, .cnc, id, true, none⟩ : Req α) := ⟨by simp, by simp, by simp⟩
      have hask := ask_owned hok ho hf ha
      cases close with
      | false => simp [ha] at h
      | true =>
        cases msg with
        | err a b => simp [ha] at h
        | data dd =>
          simp only [ha, Option.some.injEq] at h
          subst h
          have hc := hask.closed rfl
          simp only at hc
          refine ⟨Owned.put (id := id) (st1 := st1) (x := some { s with isOpen := false, ended := true, pending := none }) ho
            hask.nodup hask.other (fun d hd => absurd hd (hc d)) (fun s' h1 h2 => ?_) (fun _ => ?_) ?_ rfl ?_, hc⟩
          · simp only [Option.some.injEq] at h1
            subst h1
            exact absurd h2 (by simp)
          · simp only [Spec.St.put, Spec.St.waited]; rw [hask.total]; exact hle
          · simp only [Spec.St.put, Spec.St.waited]; exact Nat.le_of_eq hask.total.symm
          · simp only [Spec.St.put, Spec.St.waited, hask.sess]
  · rw [if_neg hop] at h
    simp only [Option.some.injEq] at h
    subst h
    have hc : ∀ d, (id, d) ∉ st.server.list := fun d hd => hop (hopen d hd)
    refine ⟨Owned.put (id := id) (st1 := st) (x := some { s with ended := true, pending := none }) ho ho.nodup
      (fun _ _ _ => Iff.rfl) (fun d hd => absurd hd (hc d)) (fun s' h1 h2 => ?_) (fun _ => hle) (Nat.le_refl _) rfl rfl, hc⟩
    simp only [Option.some.injEq] at h1
    subst h1
    exact absurd h2 hop

theorem Owned.seen {st : Spec.St (Server D W) α} (ho : Owned st) (n : Nat) : Owned { st with seen := n } :=
  ⟨ho.nodup, ho.own, ho.fresh, ho.started⟩

theorem giveUp_owned (hok : ∀ h ∈ handlers, Spec.HandlerOk h) {st st' : Spec.St (Server D W) α} {id : Nat} {s : Spec.Sess α}
    (ho : Owned st) (hs : st.sess id = some s) (h : Spec.giveUp (serve handlers retries) st id s = some st') :
    Owned st' ∧ (∀ d, (id, d) ∉ st'.server.list) := by
  unfold Spec.giveUp at h
  cases hp : s.pending with
  | none =>
    simp only [hp] at h
    exact finish_owned hok ho (ho.le hs) (fun d hd => (ho.same hs hd).2.1) h
  | some p =>
    simp only [hp] at h
    split at h
    · split at h
      · exact absurd h (by simp)
      · exact finish_owned hok ho (ho.le hs) (fun d hd => (ho.same hs hd).2.1) h
    · cases hm : p.msg with
      | err a b => simp [hm] at h
      | data dd =>
        simp only [hm] at h
        refine finish_owned (st := st.waitedFor p.seq) hok (ho.seen (max st.seen p.seq)) (ho.le hs) (fun d hd => ?_) h
        obtain ⟨_, h2, h3⟩ := ho.same hs hd
        simp [h2, h3 p hp]

/-- One call. -/
theorem call_owned (hok : ∀ h ∈ handlers, Spec.HandlerOk h) {st st' : Spec.St (Server D W) α} {c : Call α} {o : Out (Option α)}
    (ho : Owned st) (h : Spec.call (serve handlers retries) st c = some (st', o)) : Owned st' := by
  have simple : ∀ command param, Spec.call.simple (serve handlers retries) st command param = some (st', o) → Owned st' := by
    intro command param h
    unfold Spec.call.simple at h
    cases ha : Spec.ask (serve handlers retries) st ⟨command, .prc, st.total + 1, false, param⟩ with
    | none => simp [ha] at h
    | some r =>
      obtain ⟨st1, close, msg⟩ := r
      simp only [ha, Option.some.injEq, Prod.mk.injEq] at h
      obtain ⟨rfl, _⟩ := h
      have hno : ∀ d, (st.total + 1, d) ∉ st.server.list := by
        intro d hd
        obtain ⟨s, h1, _⟩ := ho.own _ d hd
        rw [ho.fresh _ (by omega)] at h1
        exact absurd h1 (by simp)
      have hask := ask_owned hok ho (q := ⟨command, .prc, st.total + 1, false, param⟩) ⟨fun _ => hno, by simp, by simp⟩ ha
      refine Owned.put (id := st.total + 1) (st1 := st1) (x := none) ho hask.nodup hask.other (fun d hd => ?_) (by simp) (by simp)
        ?_ rfl ?_
      · rcases hask.here d hd with h1 | ⟨d', h1⟩
        · simp at h1
        · exact absurd h1 (hno d')
      · simp only; rw [hask.total]; omega
      · funext k
        simp only [Spec.St.waited, hask.sess]
        by_cases hk : k = st.total + 1
        · rw [if_pos hk, hk, ho.fresh _ (by omega)]
        · rw [if_neg hk]
  cases c with
  | new command async =>
    simp only [Spec.call, Option.some.injEq, Prod.mk.injEq] at h
    obtain ⟨rfl, _⟩ := h
    refine Owned.put (id := st.total + 1) (st1 := st) (x := some ⟨command, async, false, async, false, none⟩) ho ho.nodup
      (fun _ _ _ => Iff.rfl) (fun d hd => ?_) (by simp) (by simp [Spec.St.put]) (by simp [Spec.St.put]) rfl rfl
    obtain ⟨s, h1, _⟩ := ho.own _ d hd
    rw [ho.fresh _ (by omega)] at h1
    exact absurd h1 (by simp)
  | request command param => exact simple _ _ h
  | noop => exact simple _ _ h
  | keepAlive due =>
    cases due with
    | true => exact simple _ _ h
    | false =>
      simp only [Spec.call, Option.some.injEq, Prod.mk.injEq] at h
      rw [← h.1]
      exact ho
  | «open» id param =>
    simp only [Spec.call] at h
    cases hl : Spec.live st id with
    | none => simp [hl] at h
    | some s =>
      simp only [hl] at h
      obtain ⟨hs, he⟩ := live_some hl
      split at h
      · exact absurd h (by simp)
      · rename_i hcond
        simp only [Bool.or_eq_true, not_or] at hcond
        cases ha : Spec.ask (serve handlers retries) st ⟨s.command, .opn, id, false, param⟩ with
        | none => simp [ha] at h
        | some r =>
          obtain ⟨st1, close, msg⟩ := r
          simp only [ha, Option.some.injEq, Prod.mk.injEq] at h
          obtain ⟨rfl, _⟩ := h
          have hask := ask_owned hok ho (q := ⟨s.command, .opn, id, false, param⟩)
            ⟨fun _ d hd => hcond.1.1 (ho.same hs hd).2.1, by simp, by simp⟩ ha
          have hpend : s.pending = none := by simpa using hcond.1.2
          refine Owned.put (id := id) (st1 := st1) (x := some { s with isOpen := !close, started := true }) ho hask.nodup hask.other
            (fun d hd => ?_) (fun s' h1 _ => ?_) (fun _ => ?_) ?_ rfl ?_
          · refine ⟨_, rfl, he, ?_, fun p hp => by rw [hpend] at hp; exact absurd hp (by simp)⟩
            cases close with
            | true => exact absurd hd (hask.closed rfl d)
            | false => rfl
          · simp only [Option.some.injEq] at h1; subst h1; rfl
          · simp only [Spec.St.put, Spec.St.waited]; rw [hask.total]; exact ho.le hs
          · simp only [Spec.St.put, Spec.St.waited]; exact Nat.le_of_eq hask.total.symm
          · simp only [Spec.St.put, Spec.St.waited, hask.sess]
  | sessRequest id param =>
    simp only [Spec.call] at h
    cases hl : Spec.live st id with
    | none => simp [hl] at h
    | some s =>
      simp only [hl] at h
      obtain ⟨hs, he⟩ := live_some hl
      split at h
      · exact absurd h (by simp)
      · rename_i hcond
        have hpend : s.pending = none := by simpa using hcond
        cases ha : Spec.ask (serve handlers retries) st ⟨s.command, .prc, id, s.isOpen, param⟩ with
        | none => simp [ha] at h
        | some r =>
          obtain ⟨st1, close, msg⟩ := r
          simp only [ha, Option.some.injEq, Prod.mk.injEq] at h
          obtain ⟨rfl, _⟩ := h
          have hask := ask_owned hok ho (q := ⟨s.command, .prc, id, s.isOpen, param⟩)
            ⟨fun hno d hd => by simp only at hno; rw [(ho.same hs hd).2.1] at hno; exact absurd hno (by simp), by simp, by simp⟩ ha
          refine Owned.put (id := id) (st1 := st1) (x := some { s with isOpen := s.isOpen && !close }) ho hask.nodup hask.other
            (fun d hd => ?_) (fun s' h1 h2 => ?_) (fun _ => ?_) ?_ rfl ?_
          · refine ⟨_, rfl, he, ?_, fun p hp => by rw [hpend] at hp; exact absurd hp (by simp)⟩
            cases close with
            | true => exact absurd hd (hask.closed rfl d)
            | false =>
              rcases hask.here d hd with h1 | ⟨d', h1⟩
              · simp at h1
              · simp [(ho.same hs h1).2.1]
          · simp only [Option.some.injEq] at h1
            subst h1
            simp only [Bool.and_eq_true] at h2
            exact ho.started id s hs h2.1
          · simp only [Spec.St.put, Spec.St.waited]; rw [hask.total]; exact ho.le hs
          · simp only [Spec.St.put, Spec.St.waited]; exact Nat.le_of_eq hask.total.symm
          · simp only [Spec.St.put, Spec.St.waited, hask.sess]
  | requestAsync id param =>
    simp only [Spec.call] at h
    cases hl : Spec.live st id with
    | none => simp [hl] at h
    | some s =>
      simp only [hl] at h
      obtain ⟨hs, he⟩ := live_some hl
      split at h
      · exact absurd h (by simp)
      · cases ha : Spec.ask (serve handlers retries) st ⟨s.command, .prc, id, s.isOpen, param⟩ with
        | none => simp [ha] at h
        | some r =>
          obtain ⟨st1, close, msg⟩ := r
          simp only [ha, Option.some.injEq, Prod.mk.injEq] at h
          obtain ⟨rfl, _⟩ := h
          have hask := ask_owned hok ho (q := ⟨s.command, .prc, id, s.isOpen, param⟩)
            ⟨fun hno d hd => by simp only at hno; rw [(ho.same hs hd).2.1] at hno; exact absurd hno (by simp), by simp, by simp⟩ ha
          refine Owned.put (id := id) (st1 := st1) (x := some { s with pending := some ⟨st1.sent, close, msg⟩ }) ho hask.nodup
            hask.other (fun d hd => ?_) (fun s' h1 h2 => ?_) (fun _ => ?_) ?_ rfl ?_
          · refine ⟨_, rfl, he, ?_, fun p hp => ?_⟩
            · rcases hask.here d hd with h1 | ⟨d', h1⟩
              · simp at h1
              · exact (ho.same hs h1).2.1
            · simp only [Option.some.injEq] at hp
              subst hp
              cases close with
              | true => exact absurd hd (hask.closed rfl d)
              | false => rfl
          · simp only [Option.some.injEq] at h1
            subst h1
            exact ho.started id s hs h2
          · simp only [Spec.St.put]; rw [hask.total]; exact ho.le hs
          · simp only [Spec.St.put]; exact Nat.le_of_eq hask.total.symm
          · simp only [Spec.St.put, hask.sess]
  | response id =>
    simp only [Spec.call] at h
    cases hl : Spec.live st id with
    | none => simp [hl] at h
    | some s =>
      simp only [hl] at h
      obtain ⟨hs, he⟩ := live_some hl
      cases hp : s.pending with
      | none => simp [hp] at h
      | some p =>
        simp only [hp, Option.some.injEq, Prod.mk.injEq] at h
        obtain ⟨rfl, _⟩ := h
        refine Owned.put (id := id) (st1 := st) (x := some { s with isOpen := s.isOpen && !p.close, pending := none }) ho ho.nodup
          (fun _ _ _ => Iff.rfl) (fun d hd => ?_) (fun s' h1 h2 => ?_) (fun _ => ho.le hs) (Nat.le_refl _) rfl rfl
        · obtain ⟨_, h2, h3⟩ := ho.same hs hd
          exact ⟨_, rfl, he, by simp [h2, h3 p hp], by simp⟩
        · simp only [Option.some.injEq] at h1
          subst h1
          simp only [Bool.and_eq_true] at h2
          exact ho.started id s hs h2.1
  | close id =>
    simp only [Spec.call] at h
    cases hl : Spec.live st id with
    | none => simp [hl] at h
    | some s =>
      simp only [hl] at h
      obtain ⟨hs, he⟩ := live_some hl
      split at h
      · exact absurd h (by simp)
      · rename_i hcond
        simp only [Bool.or_eq_true, not_or] at hcond
        have hpend : s.pending = none := by simpa using hcond.2
        have hop : s.isOpen = true := by simpa using hcond.1
        cases ha : Spec.ask (serve handlers retries) st ⟨s.command, .cls, id, true, none⟩ with
        | none => simp [ha] at h
        | some r =>
          obtain ⟨st1, close, msg⟩ := r
          have hask := ask_owned hok ho (q := ⟨s.command, .cls, id, true, none⟩) ⟨by simp, by simp, by simp⟩ ha
          cases msg with
          | data dd =>
            cases close with
            | false => simp [ha] at h
            | true =>
              simp only [ha, Option.some.injEq, Prod.mk.injEq] at h
              obtain ⟨rfl, _⟩ := h
              refine Owned.put (id := id) (st1 := st1) (x := some { s with isOpen := false, ended := true }) ho hask.nodup hask.other
                (fun d hd => absurd hd (hask.closed rfl d)) (fun s' h1 h2 => ?_) (fun _ => ?_) ?_ rfl ?_
              · simp only [Option.some.injEq] at h1
                subst h1
                exact absurd h2 (by simp)
              · simp only [Spec.St.put, Spec.St.waited]; rw [hask.total]; exact ho.le hs
              · simp only [Spec.St.put, Spec.St.waited]; exact Nat.le_of_eq hask.total.symm
              · simp only [Spec.St.put, Spec.St.waited, hask.sess]
          | err a b =>
            have h' : st' = st1.waited.put id (some { s with isOpen := !close }) := by
              cases close <;> simp only [ha, Option.some.injEq, Prod.mk.injEq] at h <;> exact h.1.symm
            subst h'
            refine Owned.put (id := id) (st1 := st1) (x := some { s with isOpen := !close }) ho hask.nodup hask.other
              (fun d hd => ?_) (fun s' h1 h2 => ?_) (fun _ => ?_) ?_ rfl ?_
            · refine ⟨_, rfl, he, ?_, fun p hp => by rw [hpend] at hp; exact absurd hp (by simp)⟩
              cases close with
              | true => exact absurd hd (hask.closed rfl d)
              | false => rfl
            · simp only [Option.some.injEq] at h1
              subst h1
              exact ho.started id s hs hop
            · simp only [Spec.St.put, Spec.St.waited]; rw [hask.total]; exact ho.le hs
            · simp only [Spec.St.put, Spec.St.waited]; exact Nat.le_of_eq hask.total.symm
            · simp only [Spec.St.put, Spec.St.waited, hask.sess]
  | cancel id =>
    simp only [Spec.call] at h
    cases hl : Spec.live st id with
    | none => simp [hl] at h
    | some s =>
      simp only [hl] at h
      obtain ⟨hs, he⟩ := live_some hl
      split at h
      · exact absurd h (by simp)
      · cases hg : Spec.giveUp (serve handlers retries) st id s with
        | none => simp [hg] at h
        | some st2 =>
          simp only [hg, Option.some.injEq, Prod.mk.injEq] at h
          obtain ⟨rfl, _⟩ := h
          exact (giveUp_owned hok ho hs hg).1
  | free id =>
    simp only [Spec.call] at h
    cases hs : st.sess id with
    | none => simp [hs] at h
    | some s =>
      simp only [hs] at h
      split at h
      · rename_i hcond
        simp only [Option.some.injEq, Prod.mk.injEq] at h
        obtain ⟨rfl, _⟩ := h
        refine Owned.put (id := id) (st1 := st) (x := none) ho ho.nodup (fun _ _ _ => Iff.rfl) (fun d hd => ?_) (by simp) (by simp)
          (Nat.le_refl _) rfl rfl
        obtain ⟨h1, h2, _⟩ := ho.same hs hd
        simp [h1, ho.started id s hs h2] at hcond
      · cases hg : Spec.giveUp (serve handlers retries) st id s with
        | none => simp [hg] at h
        | some st2 =>
          simp only [hg, Option.some.injEq, Prod.mk.injEq] at h
          obtain ⟨rfl, _⟩ := h
          obtain ⟨h1, h2⟩ := giveUp_owned hok ho hs hg
          exact Owned.put (id := id) (st1 := st2) (x := none) h1 h1.nodup (fun _ _ _ => Iff.rfl) (fun d hd => absurd hd (h2 d))
            (by simp) (by simp) (Nat.le_refl _) rfl rfl

theorem run_owned (hok : ∀ h ∈ handlers, Spec.HandlerOk h) : ∀ {cs : List (Call α)} {st st' : Spec.St (Server D W) α}
    {os : List (Out (Option α))}, Owned st → Spec.run (serve handlers retries) st cs = some (st', os) → Owned st'
  | [], st, st', os, ho, h => by
    simp only [Spec.run, Option.some.injEq, Prod.mk.injEq] at h
    rw [← h.1]
    exact ho
  | c :: cs, st, st', os, ho, h => by
    simp only [Spec.run] at h
    cases hc : Spec.call (serve handlers retries) st c with
    | none => simp [hc] at h
    | some r =>
      obtain ⟨st1, o⟩ := r
      simp only [hc] at h
      cases hr : Spec.run (serve handlers retries) st1 cs with
      | none => simp [hr] at h
      | some r2 =>
        obtain ⟨st2, os2⟩ := r2
        simp only [hr, Option.some.injEq, Prod.mk.injEq] at h
        obtain ⟨rfl, _⟩ := h
        exact run_owned hok (call_owned hok ho hc) hr

/-- Client and server together do not leak sessions. After any history of calls of the client, and once the server has taken the
requests that are still on the connection, every session that the server has belongs to a session of the client that was neither
closed, cancelled nor freed and that the client takes for open, and no session is there twice. -/
theorem c71_no_leak (handlers : List (Handler α D W)) (retries : Nat) (hok : ∀ h ∈ handlers, Spec.HandlerOk h) (w : W)
    (cs : List (Call α)) (st : Spec.St (Server D W) α) (os : List (Out (Option α)))
    (h : Spec.run (serve handlers retries) (Spec.start ⟨[], w⟩) cs = some (st, os)) :
    ∃ sv rs svEnd, (run (serve handlers retries) (clientNew ⟨[], w⟩) cs).1.server = some sv ∧
      answers (serve handlers retries) sv (run (serve handlers retries) (clientNew ⟨[], w⟩) cs).1.toServer = some (svEnd, rs) ∧
      (svEnd.list.map (·.1)).Nodup ∧
      ∀ k d, (k, d) ∈ svEnd.list → ∃ s, st.sess k = some s ∧ s.ended = false ∧ s.isOpen = true ∧
        ∀ p, s.pending = some p → p.close = false := by
  obtain ⟨sv, rs, h1, h2⟩ := c70_server_partial (serve handlers retries) ⟨[], w⟩ cs st os h
  have ho : Owned (Spec.start (α := α) (⟨[], w⟩ : Server D W)) :=
    ⟨by simp [Spec.start], by simp [Spec.start], fun _ _ => rfl, by simp [Spec.start]⟩
  have := run_owned hok ho h
  exact ⟨sv, rs, st.server, h1, h2, this.nodup, this.own⟩

/-! ## A server to try it with -/

/-- A counter: opening starts it, each request adds to it, it ends by itself above 100, it fails on 13 as often as the world says and
always on 14. The world counts the calls. -/
def counter : Handler Nat Nat Nat where
  command := 5
  opn := some fun w p => (w + 1, .ok (p, p))
  prc := none
  prcSession := some fun w p d =>
    match p, d with
    | some 14, _ => (w + 1, none, .error ⟨42, "read"⟩)
    | some 13, some d => if w < 3 then (w + 1, some (d + 1), .error ⟨42, "read"⟩) else (w + 1, some (d + 13), .ok (some (d + 13), false))
    | some n, some d => (w + 1, some (d + n), .ok (some (d + n), 100 < d + n))
    | n, _ => (w + 1, none, .ok (n, false))
  cls := none

example : Spec.HandlerOk counter := by
  intro f hf w p out
  simp only [counter, Option.some.injEq] at hf
  subst hf
  rcases p with _ | p
  · simp
  · dsimp only
    split <;> simp_all

/-- Three sessions. -/
def counterCalls : List (Call Nat) :=
  [.new 5 false, .new 5 true, .new 5 true, .open 1 (some 1), .open 2 (some 50), .open 3 (some 7), .requestAsync 2 (some 60),
    .sessRequest 1 (some 14), .response 2, .free 2, .close 1]

/-- The history is one that the specification allows. -/
example : (Spec.run (serve [counter] 2) (Spec.start ⟨[], 0⟩) counterCalls).isSome = true := by decide +kernel

/-- One session fails in all tries and is closed, one ends by itself, and one is left open. -/
theorem c71_example : (run (serve [counter] 2) (clientNew ⟨[], 0⟩) counterCalls).2 =
    [.ok none, .ok none, .ok none, .ok (some 1), .ok (some 50), .ok (some 7), .ok none,
      .raised ⟨42, "read"⟩ [⟨42, "read"⟩, ⟨42, "read"⟩], .ok (some 110), .ok none, .ok none] ∧
    ((run (serve [counter] 2) (clientNew ⟨[], 0⟩) counterCalls).1.server.map fun s => s.list) = some [(3, 7)] := by decide +kernel

/-- A try that fails after it changed the data of the session is made again on the changed data. -/
theorem c71_retry_changes : (match serve [counter] 2 ⟨[(1, 5)], 2⟩ ⟨5, .prc, 1, true, some 13⟩ with
    | .reply sv close msg => some (sv.list, close, msg)
    | _ => none) = some ([(1, 19)], false, .data (some 19)) := by decide +kernel

/-- A handler that says close without a session removes the first session of the list, which is another one. -/
theorem c71_close_other : (match serve [{ counter with
    prcSession := some fun w p _ => (w, none, .ok (p, true)) }] 0 ⟨[(1, 5), (2, 6)], 0⟩ ⟨5, .prc, 3, false, some 13⟩ with
    | .reply sv close msg => some (sv.list, close, msg)
    | _ => none) = some ([(2, 6)], true, .data (some 13)) := by decide +kernel

end Verif.Protocol
