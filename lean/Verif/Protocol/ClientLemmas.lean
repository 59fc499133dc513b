import Verif.Protocol.Spec

/-!
# The client and its specification are in step
-/

namespace Verif.Protocol

variable {S α : Type}

/-- The answers to the requests that the server has not read yet. -/
def answers (step : S → Req α → SOut S α) : S → List (Req α) → Option (S × List (Resp α))
  | sv, [] => some (sv, [])
  | sv, q :: qs =>
    match step sv q with
    | .reply sv' close msg =>
      match answers step sv' qs with
      | some (sv'', rs) => some (sv'', ⟨q.sessionId, close, msg⟩ :: rs)
      | none => none
    | _ => none

theorem answers_append {step : S → Req α → SOut S α} {q : Req α} {sv' sv'' : S} {close : Bool} {msg : Msg α} :
    ∀ {qs : List (Req α)} {sv : S} {rs : List (Resp α)}, answers step sv qs = some (sv', rs) →
      step sv' q = .reply sv'' close msg →
      answers step sv (qs ++ [q]) = some (sv'', rs ++ [⟨q.sessionId, close, msg⟩])
  | [], sv, rs, h, hq => by
    simp only [answers, Option.some.injEq, Prod.mk.injEq] at h
    obtain ⟨rfl, rfl⟩ := h
    simp [answers, hq]
  | q0 :: qs, sv, rs, h, hq => by
    simp only [answers] at h
    simp only [List.cons_append, answers]
    split at h
    · rename_i sv1 c m h1
      split at h
      · rename_i sv2 rs2 h2
        simp only [Option.some.injEq, Prod.mk.injEq] at h
        obtain ⟨rfl, rfl⟩ := h
        rw [answers_append h2 hq]
        rfl
      · exact absurd h (by simp)
    · exact absurd h (by simp)

theorem answers_length {step : S → Req α → SOut S α} :
    ∀ {qs : List (Req α)} {sv sv' : S} {rs : List (Resp α)}, answers step sv qs = some (sv', rs) → rs.length = qs.length
  | [], sv, sv', rs, h => by
    simp only [answers, Option.some.injEq, Prod.mk.injEq] at h
    obtain ⟨_, rfl⟩ := h
    rfl
  | q0 :: qs, sv, sv', rs, h => by
    simp only [answers] at h
    split at h
    · split at h
      · rename_i sv2 rs2 h2
        simp only [Option.some.injEq, Prod.mk.injEq] at h
        obtain ⟨_, rfl⟩ := h
        simp [answers_length h2]
      · exact absurd h (by simp)
    · exact absurd h (by simp)

/-- What the client will read from the connection is `L`, and afterwards the server is `svF`. -/
def Flight (step : S → Req α → SOut S α) (net : Net S α) (svF : S) (L : List (Resp α)) : Prop :=
  ∃ sv A, net.server = some sv ∧ answers step sv net.toServer = some (svF, A) ∧ L = net.toClient ++ A

theorem Flight.count {step : S → Req α → SOut S α} {net : Net S α} {svF : S} {L : List (Resp α)} (h : Flight step net svF L) :
    net.count = L.length := by
  obtain ⟨sv, A, _, h2, rfl⟩ := h
  simp [Net.count, answers_length h2]

/-- A client that differs only in the connection. -/
def SameBut (net net' : Net S α) : Prop :=
  net'.state = net.state ∧ net'.total = net.total ∧ net'.list = net.list ∧ net'.heap = net.heap

theorem Flight.pump {step : S → Req α → SOut S α} {net : Net S α} {svF : S} {r : Resp α} {L : List (Resp α)}
    (h : Flight step net svF (r :: L)) :
    ∃ net', pump step net = .ok (r, net') ∧ Flight step net' svF L ∧ SameBut net net' := by
  obtain ⟨sv, A, h1, h2, h3⟩ := h
  unfold Protocol.pump
  cases hc : net.toClient with
  | cons x xs =>
    rw [hc] at h3
    simp only [List.cons_append, List.cons.injEq] at h3
    obtain ⟨rfl, rfl⟩ := h3
    exact ⟨_, rfl, ⟨sv, A, h1, h2, rfl⟩, rfl, rfl, rfl, rfl⟩
  | nil =>
    rw [hc, List.nil_append] at h3
    subst h3
    cases hq : net.toServer with
    | nil =>
      rw [hq] at h2
      simp [answers] at h2
    | cons q qs =>
      rw [hq] at h2
      simp only [answers] at h2
      simp only [h1]
      split at h2
      · rename_i sv1 c m hs
        split at h2
        · rename_i sv2 rs2 h2'
          simp only [Option.some.injEq, Prod.mk.injEq, List.cons.injEq] at h2
          obtain ⟨rfl, rfl, rfl⟩ := h2
          rw [hs]
          exact ⟨_, rfl, ⟨sv1, _, rfl, h2', rfl⟩, rfl, rfl, rfl, rfl⟩
        · exact absurd h2 (by simp)
      · exact absurd h2 (by simp)

/-- A session of the client and of the specification. Nothing is said about a session that has ended. -/
def SRel (h : Sess α) (s : Spec.Sess α) (seen : Nat) : Prop :=
  h.callback = (s.started && !s.ended) ∧
    (s.ended = false →
      h.command = s.command ∧ h.async = s.async ∧ h.isOpen = s.isOpen ∧ h.queued = s.pending.isSome ∧
        (s.pending = none → h.stored = false) ∧
        ∀ p, s.pending = some p →
          (p.seq ≤ seen → h.stored = true ∧ h.close = p.close ∧ h.slot = .live p.msg) ∧ (seen < p.seq → h.stored = false))

/-- The client and the specification, leaving one session out if it is given. -/
structure RelX (step : S → Req α → SOut S α) (x : Option Nat) (net : Net S α) (st : Spec.St S α) (L : List (Resp α)) :
    Prop where
  state : net.state = .idle
  total : net.total = st.total
  fly : Flight step net st.server L
  len : st.sent = st.seen + L.length
  zero : net.heap 0 = none
  fresh : ∀ k, net.total < k → net.heap k = none
  nodup : net.list.Nodup
  absent : ∀ k, some k ≠ x → (net.heap k = none ↔ st.sess k = none)
  heap : ∀ k h s, some k ≠ x → net.heap k = some h → st.sess k = some s → SRel h s st.seen
  mem : ∀ k, some k ≠ x → (k ∈ net.list ↔ ∃ s, st.sess k = some s ∧ s.started = true ∧ s.ended = false)
  asyn : ∀ k s, some k ≠ x → st.sess k = some s → (s.async = true ∨ s.isOpen = true) → s.started = true
  pend : ∀ k s p, some k ≠ x → st.sess k = some s → s.ended = false → s.pending = some p →
    s.async = true ∧ p.seq ≤ st.sent ∧ (st.seen < p.seq → L[p.seq - st.seen - 1]? = some ⟨k, p.close, p.msg⟩)
  flyp : ∀ i r, L[i]? = some r → some r.sessionId ≠ x →
    ∃ s p, st.sess r.sessionId = some s ∧ s.ended = false ∧ s.pending = some p ∧ p.seq = st.seen + 1 + i ∧ p.close = r.close ∧
      p.msg = r.msg

variable {step : S → Req α → SOut S α} {x : Option Nat} {net net' : Net S α} {st st' : Spec.St S α} {L : List (Resp α)}

theorem RelX.start (sv : S) : RelX step none (clientNew sv) (Spec.start sv : Spec.St S α) [] where
  state := rfl
  total := rfl
  fly := ⟨sv, [], rfl, rfl, rfl⟩
  len := rfl
  zero := rfl
  fresh := fun _ _ => rfl
  nodup := List.nodup_nil
  absent := fun _ _ => by simp [clientNew, Spec.start]
  heap := fun _ _ _ _ h => by simp [clientNew] at h
  mem := fun _ _ => by simp [clientNew, Spec.start]
  asyn := fun _ _ _ h => by simp [Spec.start] at h
  pend := fun _ _ _ _ h => by simp [Spec.start] at h
  flyp := fun _ _ h => by simp at h

/-- A session may be left out. -/
theorem RelX.leave (h : RelX step none net st L) (id : Nat) : RelX step (some id) net st L where
  state := h.state
  total := h.total
  fly := h.fly
  len := h.len
  zero := h.zero
  fresh := h.fresh
  nodup := h.nodup
  absent := fun k _ => h.absent k (by simp)
  heap := fun k a s _ => h.heap k a s (by simp)
  mem := fun k _ => h.mem k (by simp)
  asyn := fun k s _ => h.asyn k s (by simp)
  pend := fun k s p _ => h.pend k s p (by simp)
  flyp := fun i r hi _ => h.flyp i r hi (by simp)

/-- The session that was left out comes back. -/
theorem RelX.back {id : Nat} (h : RelX step (some id) net st L)
    (hL : ∀ r ∈ L, r.sessionId ≠ id)
    (hn : net.heap id = none ↔ st.sess id = none)
    (hh : ∀ a s, net.heap id = some a → st.sess id = some s → SRel a s st.seen)
    (hm : id ∈ net.list ↔ ∃ s, st.sess id = some s ∧ s.started = true ∧ s.ended = false)
    (ha : ∀ s, st.sess id = some s → (s.async = true ∨ s.isOpen = true) → s.started = true)
    (hp : ∀ s p, st.sess id = some s → s.ended = false → s.pending = some p →
      s.async = true ∧ p.seq ≤ st.sent ∧ (st.seen < p.seq → L[p.seq - st.seen - 1]? = some ⟨id, p.close, p.msg⟩)) :
    RelX step none net st L where
  state := h.state
  total := h.total
  fly := h.fly
  len := h.len
  zero := h.zero
  fresh := h.fresh
  nodup := h.nodup
  absent := fun k _ => by
    by_cases hk : k = id
    · subst hk; exact hn
    · exact h.absent k (by simpa using hk)
  heap := fun k a s _ => by
    by_cases hk : k = id
    · subst hk; exact hh a s
    · exact h.heap k a s (by simpa using hk)
  mem := fun k _ => by
    by_cases hk : k = id
    · subst hk; exact hm
    · exact h.mem k (by simpa using hk)
  asyn := fun k s _ => by
    by_cases hk : k = id
    · subst hk; exact ha s
    · exact h.asyn k s (by simpa using hk)
  pend := fun k s p _ => by
    by_cases hk : k = id
    · subst hk; exact hp s p
    · exact h.pend k s p (by simpa using hk)
  flyp := fun i r hi _ => h.flyp i r hi (by
    have := hL r (List.mem_of_getElem? hi)
    simpa using this)

/-- The same, when the answer to the last request of the session is the last one on the connection. -/
theorem RelX.backPending {id : Nat} {c : Bool} {m : Msg α} {s : Spec.Sess α} {a : Sess α}
    (h : RelX step (some id) net st (L ++ [⟨id, c, m⟩]))
    (hL : ∀ r ∈ L, r.sessionId ≠ id)
    (hs : st.sess id = some s) (hha : net.heap id = some a)
    (hh : SRel a s st.seen)
    (hm : id ∈ net.list) (hst : s.started = true) (he : s.ended = false) (has : s.async = true)
    (hp : s.pending = some ⟨st.sent, c, m⟩) :
    RelX step none net st (L ++ [⟨id, c, m⟩]) := by
  have hlen := h.len
  simp only [List.length_append, List.length_cons, List.length_nil] at hlen
  refine ⟨h.state, h.total, h.fly, h.len, h.zero, h.fresh, h.nodup, ?_, ?_, ?_, ?_, ?_, ?_⟩
  · intro k _
    by_cases hk : k = id
    · subst hk; simp [hs, hha]
    · exact h.absent k (by simpa using hk)
  · intro k b s' _ hb hs'
    by_cases hk : k = id
    · subst hk
      rw [hha] at hb; rw [hs] at hs'
      simp only [Option.some.injEq] at hb hs'
      subst hb; subst hs'
      exact hh
    · exact h.heap k b s' (by simpa using hk) hb hs'
  · intro k _
    by_cases hk : k = id
    · subst hk; exact ⟨fun _ => ⟨s, hs, hst, he⟩, fun _ => hm⟩
    · exact h.mem k (by simpa using hk)
  · intro k s' _ hs' ha'
    by_cases hk : k = id
    · subst hk
      rw [hs] at hs'
      simp only [Option.some.injEq] at hs'
      subst hs'; exact hst
    · exact h.asyn k s' (by simpa using hk) hs' ha'
  · intro k s' p _ hs' he' hp'
    by_cases hk : k = id
    · subst hk
      rw [hs] at hs'
      simp only [Option.some.injEq] at hs'
      subst hs'
      rw [hp] at hp'
      simp only [Option.some.injEq] at hp'
      subst hp'
      refine ⟨has, Nat.le_refl _, fun _ => ?_⟩
      have : st.sent - st.seen - 1 = L.length := by omega
      simp [this]
    · exact h.pend k s' p (by simpa using hk) hs' he' hp'
  · intro i r hi _
    by_cases hr : r.sessionId = id
    · have hi' : i = L.length := by
        by_cases hlt : i < L.length
        · rw [List.getElem?_append_left hlt] at hi
          exact absurd hr (hL r (List.mem_of_getElem? hi))
        · have : i < (L ++ [(⟨id, c, m⟩ : Resp α)]).length := by
            rcases Nat.lt_or_ge i (L ++ [(⟨id, c, m⟩ : Resp α)]).length with h1 | h1
            · exact h1
            · rw [List.getElem?_eq_none h1] at hi
              exact absurd hi (by simp)
          simp at this
          omega
      subst hi'
      simp at hi
      subst hi
      exact ⟨s, _, hs, he, hp, by simp only; omega, rfl, rfl⟩
    · exact h.flyp i r hi (by simpa using hr)

/-- Whatever is done to the session that is left out does not matter to the others. -/
theorem RelX.frame {id : Nat} (h : RelX step (some id) net st L)
    (h1 : net'.state = net.state) (h2 : net'.total = net.total) (h3 : net'.toServer = net.toServer)
    (h4 : net'.toClient = net.toClient) (h5 : net'.server = net.server)
    (h6 : ∀ k, k ≠ id → net'.heap k = net.heap k)
    (h7 : net'.list.Nodup) (h8 : ∀ k, k ≠ id → (k ∈ net'.list ↔ k ∈ net.list))
    (s1 : st'.server = st.server) (s2 : st'.total = st.total) (s3 : st'.sent = st.sent) (s4 : st'.seen = st.seen)
    (s5 : ∀ k, k ≠ id → st'.sess k = st.sess k)
    (hid : id ≠ 0) (hle : id ≤ net.total) : RelX step (some id) net' st' L where
  state := by rw [h1]; exact h.state
  total := by rw [h2, s2]; exact h.total
  fly := by
    obtain ⟨sv, A, f1, f2, f3⟩ := h.fly
    exact ⟨sv, A, by rw [h5]; exact f1, by rw [h3, s1]; exact f2, by rw [h4]; exact f3⟩
  len := by rw [s3, s4]; exact h.len
  zero := by rw [h6 0 (Ne.symm hid)]; exact h.zero
  fresh := fun k hk => by
    rw [h2] at hk
    rw [h6 k (by omega)]
    exact h.fresh k hk
  nodup := h7
  absent := fun k hk => by
    have hk' : k ≠ id := by simpa using hk
    rw [h6 k hk', s5 k hk']
    exact h.absent k hk
  heap := fun k a s hk => by
    have hk' : k ≠ id := by simpa using hk
    rw [h6 k hk', s5 k hk', s4]
    exact h.heap k a s hk
  mem := fun k hk => by
    have hk' : k ≠ id := by simpa using hk
    rw [h8 k hk', s5 k hk']
    exact h.mem k hk
  asyn := fun k s hk => by
    have hk' : k ≠ id := by simpa using hk
    rw [s5 k hk']
    exact h.asyn k s hk
  pend := fun k s p hk => by
    have hk' : k ≠ id := by simpa using hk
    rw [s5 k hk', s3, s4]
    exact h.pend k s p hk
  flyp := fun i r hi hk => by
    have hk' : r.sessionId ≠ id := by simpa using hk
    rw [s5 _ hk', s4]
    exact h.flyp i r hi hk

theorem findIdx_ok {heap : Nat → Option (Sess α)} {id : Nat} :
    ∀ {list : List Nat}, id ∈ list → (∀ k ∈ list, heap k ≠ none) → findIdx heap list id = .ok (list.idxOf id)
  | [], h, _ => by simp at h
  | y :: ys, h, ha => by
    simp only [findIdx]
    cases hy : heap y with
    | none => exact absurd hy (ha y (by simp))
    | some s =>
      by_cases hyi : y = id
      · subst hyi; simp
      · have hmem : id ∈ ys := by
          rcases List.mem_cons.mp h with h | h
          · exact absurd h.symm hyi
          · exact h
        rw [findIdx_ok hmem (fun k hk => ha k (by simp [hk]))]
        have hb : (y == id) = false := by simpa using hyi
        simp [List.idxOf_cons, hb]

/-- Sessions in the list have not been freed. -/
theorem RelX.alive (h : RelX step x net st L) (hx : ∀ id, x = some id → net.heap id ≠ none) :
    ∀ k ∈ net.list, net.heap k ≠ none := by
  intro k hk
  by_cases hkx : some k = x
  · exact hx k hkx.symm
  · obtain ⟨s, hs, _⟩ := (h.mem k hkx).mp hk
    intro hn
    rw [h.absent k hkx, hs] at hn
    exact absurd hn (by simp)

/-- The next answer is the one the session left out waits for. -/
theorem RelX.own {id : Nat} {r : Resp α} (h : RelX step (some id) net st (r :: L)) (hr : r.sessionId = id)
    (hf : Flight step net' st.server L) (hs : SameBut net net') :
    RelX step (some id) net' { st with seen := st.seen + 1 } L := by
  obtain ⟨s1, s2, s3, s4⟩ := hs
  have hlen := h.len
  simp only [List.length_cons] at hlen
  have key : ∀ k s p, some k ≠ some id → st.sess k = some s → s.ended = false → s.pending = some p →
      p.seq ≠ st.seen + 1 := by
    intro k s p hk hs he hp heq
    have := (h.pend k s p hk hs he hp).2.2 (by omega)
    rw [show p.seq - st.seen - 1 = 0 by omega] at this
    simp at this
    subst this
    exact hk (by rw [← hr])
  refine ⟨by rw [s1]; exact h.state, by rw [s2]; exact h.total, hf, by simp only; omega, by rw [s4]; exact h.zero, ?_, by rw [s3]; exact h.nodup, ?_, ?_,
    ?_, h.asyn, ?_, ?_⟩
  · intro k hk; rw [s4]; exact h.fresh k (by rwa [s2] at hk)
  · intro k hk; rw [s4]; exact h.absent k hk
  · intro k a s hk ha hs
    rw [s4] at ha
    obtain ⟨g1, g2⟩ := h.heap k a s hk ha hs
    refine ⟨g1, fun he => ?_⟩
    obtain ⟨g3, g4, g5, g6, g7, g8⟩ := g2 he
    refine ⟨g3, g4, g5, g6, g7, fun p hp => ?_⟩
    have hne := key k s p hk hs he hp
    exact ⟨fun hle => (g8 p hp).1 (by simp only at hle; omega), fun hlt => (g8 p hp).2 (by simp only at hlt; omega)⟩
  · intro k hk; rw [s3]; exact h.mem k hk
  · intro k s p hk hs he hp
    obtain ⟨g1, g2, g3⟩ := h.pend k s p hk hs he hp
    refine ⟨g1, g2, fun hlt => ?_⟩
    simp only at hlt
    have := g3 (by omega)
    rw [show p.seq - st.seen - 1 = (p.seq - (st.seen + 1) - 1) + 1 by omega, List.getElem?_cons_succ] at this
    exact this
  · intro i r' hi hk
    obtain ⟨s, p, g1, g2, g3, g4, g5, g6⟩ := h.flyp (i + 1) r' (by simpa using hi) hk
    exact ⟨s, p, g1, g2, g3, by simp only; omega, g5, g6⟩

/-- The next answer is for another session, and is stored with it. -/
theorem RelX.other {id : Nat} {r : Resp α} {a : Sess α} (h : RelX step (some id) net st (r :: L)) (hr : r.sessionId ≠ id)
    (hid : net.heap id = some a)
    (hf : Flight step net' st.server L) (hs : SameBut net net') :
    r.sessionId ≠ 0 ∧ ∃ net'', storeOther net' r = .ok net'' ∧ RelX step (some id) net'' { st with seen := st.seen + 1 } L ∧
      net''.heap id = some a ∧ net''.list = net.list ∧ net''.total = net.total := by
  obtain ⟨s1, s2, s3, s4⟩ := hs
  have hlen := h.len
  simp only [List.length_cons] at hlen
  have hrx : some r.sessionId ≠ some id := by simpa using hr
  obtain ⟨sr, p, g1, g2, g3, g4, g5, g6⟩ := h.flyp 0 r (by simp) hrx
  have halive := h.alive (fun k hk => by simp only [Option.some.injEq] at hk; subst hk; simp [hid])
  have hpend := h.pend r.sessionId sr p hrx g1 g2 g3
  have hmem : r.sessionId ∈ net.list := (h.mem _ hrx).mpr ⟨sr, g1, h.asyn _ _ hrx g1 (.inl hpend.1), g2⟩
  obtain ⟨b, hb⟩ : ∃ b, net.heap r.sessionId = some b := by
    cases hb : net.heap r.sessionId with
    | none => exact absurd hb (halive _ hmem)
    | some b => exact ⟨b, rfl⟩
  obtain ⟨k1, k2⟩ := h.heap _ b sr hrx hb g1
  obtain ⟨k3, k4, k5, k6, k7, k8⟩ := k2 g2
  have hst : b.stored = false := (k8 p g3).2 (by omega)
  have hfi : findIdx net'.heap net'.list r.sessionId = .ok (net.list.idxOf r.sessionId) := by
    rw [s3, s4]; exact findIdx_ok hmem halive
  have hget : net'.list[net.list.idxOf r.sessionId]? = some r.sessionId := by
    rw [s3, List.getElem?_eq_getElem (List.idxOf_lt_length_iff.mpr hmem), List.getElem_idxOf]
  have hz : r.sessionId ≠ 0 := by
    intro h0
    rw [h0] at hb
    rw [h.zero] at hb
    exact absurd hb (by simp)
  have key : ∀ k s p', some k ≠ some id → k ≠ r.sessionId → st.sess k = some s → s.ended = false → s.pending = some p' →
      p'.seq ≠ st.seen + 1 := by
    intro k s p' hk hkr hs he hp heq
    have := (h.pend k s p' hk hs he hp).2.2 (by omega)
    rw [show p'.seq - st.seen - 1 = 0 by omega] at this
    simp at this
    subst this
    exact hkr rfl
  refine ⟨hz, net'.set r.sessionId { b with stored := true, close := r.close, slot := .live r.msg }, ?_, ?_, ?_, ?_, ?_⟩
  · unfold storeOther
    rw [hfi]
    simp only [hget]
    rw [s4, hb]
    simp [hst]
  · refine ⟨by simp only [Net.set]; rw [s1]; exact h.state, by simp only [Net.set]; rw [s2]; exact h.total, ?_, by simp only; omega, ?_, ?_, ?_, ?_, ?_,
      ?_, h.asyn, ?_, ?_⟩
    · obtain ⟨sv, A, f1, f2, f3⟩ := hf
      exact ⟨sv, A, f1, f2, f3⟩
    · simp only [Net.set, upd, s4]
      rw [if_neg (Ne.symm hz)]; exact h.zero
    · intro k hk
      simp only [Net.set, s2] at hk
      have hk2 : k ≠ r.sessionId := by
        intro hkr; rw [← hkr, h.fresh k hk] at hb; exact absurd hb (by simp)
      simp only [Net.set, upd, s4, if_neg hk2]
      exact h.fresh k hk
    · simp only [Net.set, s3]; exact h.nodup
    · intro k hk
      by_cases hkr : k = r.sessionId
      · subst hkr; simp [Net.set, upd, g1]
      · simp only [Net.set, upd, s4, if_neg hkr]; exact h.absent k hk
    · intro k c s hk hc hs
      by_cases hkr : k = r.sessionId
      · subst hkr
        simp only [Net.set, upd, if_true, Option.some.injEq] at hc
        rw [g1] at hs
        simp only [Option.some.injEq] at hs
        subst hs; subst hc
        refine ⟨k1, fun _ => ⟨k3, k4, k5, k6, fun hpn => ?_, fun p' hp' => ?_⟩⟩
        · rw [g3] at hpn; exact absurd hpn (by simp)
        · rw [g3] at hp'
          simp only [Option.some.injEq] at hp'
          subst hp'
          exact ⟨fun _ => ⟨rfl, g5.symm, by simp only [g6]⟩, fun hlt => by simp only at hlt; omega⟩
      · simp only [Net.set, upd, s4, if_neg hkr] at hc
        obtain ⟨q1, q2⟩ := h.heap k c s hk hc hs
        refine ⟨q1, fun he => ?_⟩
        obtain ⟨q3, q4, q5, q6, q7, q8⟩ := q2 he
        refine ⟨q3, q4, q5, q6, q7, fun p' hp' => ?_⟩
        have hne := key k s p' hk hkr hs he hp'
        exact ⟨fun hle => (q8 p' hp').1 (by simp only at hle; omega),
          fun hlt => (q8 p' hp').2 (by simp only at hlt; omega)⟩
    · intro k hk; simp only [Net.set, s3]; exact h.mem k hk
    · intro k s p' hk hs he hp
      obtain ⟨q1, q2, q3⟩ := h.pend k s p' hk hs he hp
      refine ⟨q1, q2, fun hlt => ?_⟩
      simp only at hlt
      have := q3 (by omega)
      rw [show p'.seq - st.seen - 1 = (p'.seq - (st.seen + 1) - 1) + 1 by omega, List.getElem?_cons_succ] at this
      exact this
    · intro i r' hi hk
      obtain ⟨s, p', q1, q2, q3, q4, q5, q6⟩ := h.flyp (i + 1) r' (by simpa using hi) hk
      exact ⟨s, p', q1, q2, q3, by simp only; omega, q5, q6⟩
  · simp only [Net.set, upd, s4]
    rw [if_neg (Ne.symm hr)]; exact hid
  · exact s3
  · exact s2

/-- Waiting reads up to the answer of the session. -/
theorem readLoop_sim {id : Nat} {r : Resp α} {post : List (Resp α)} {a : Sess α} (hr : r.sessionId = id) :
    ∀ {pre : List (Resp α)} {net : Net S α} {st : Spec.St S α} {fuel : Nat},
      RelX step (some id) net st (pre ++ r :: post) → (∀ y ∈ pre, y.sessionId ≠ id) → pre.length < fuel →
      net.heap id = some a →
      ∃ net', readLoop step fuel net id = (net', .ok (r.close, r.msg)) ∧
        RelX step (some id) net' { st with seen := st.seen + pre.length + 1 } post ∧ net'.heap id = some a ∧
        net'.list = net.list ∧ net'.total = net.total
  | [], net, st, 0, _, _, hfu, _ => by simp at hfu
  | [], net, st, fuel + 1, h, _, _, ha => by
    obtain ⟨net1, hp, hf, hs⟩ := h.fly.pump
    refine ⟨net1, ?_, ?_, ?_, ?_, ?_⟩
    · simp only [readLoop, hp]
      rw [if_neg (by simp [hr])]
    · exact RelX.own h hr hf hs
    · rw [hs.2.2.2]; exact ha
    · exact hs.2.2.1
    · exact hs.2.1
  | y :: pre, net, st, 0, _, _, hfu, _ => by simp at hfu
  | y :: pre, net, st, fuel + 1, h, hne, hfu, ha => by
    obtain ⟨net1, hp, hf, hs⟩ := h.fly.pump
    have hy := hne y (by simp)
    obtain ⟨hz, net2, hso, hrel, ha2, hl2, ht2⟩ := RelX.other h hy ha hf hs
    obtain ⟨net3, e1, e2, e3, e4, e5⟩ := readLoop_sim hr (fuel := fuel) hrel (fun z hz => hne z (by simp [hz]))
      (by simp at hfu; exact hfu) ha2
    refine ⟨net3, ?_, ?_, e3, by rw [e4, hl2], by rw [e5, ht2]⟩
    · simp only [readLoop, hp]
      rw [if_pos ⟨hz, hy⟩]
      simp only [hso]
      exact e1
    · have : st.seen + 1 + pre.length + 1 = st.seen + (y :: pre).length + 1 := by simp; omega
      simp only at e2
      rw [this] at e2
      exact e2

/-- What the wait does to the session itself. -/
theorem response_sim {id : Nat} {r : Resp α} {pre post : List (Resp α)} {a : Sess α} (hr : r.sessionId = id)
    (h : RelX step (some id) net st (pre ++ r :: post)) (hne : ∀ y ∈ pre, y.sessionId ≠ id)
    (ha : net.heap id = some a) (hst : a.stored = false) :
    ∃ net', responseInternal step net id = (net', Spec.result r.msg) ∧
      RelX step (some id) net' { st with seen := st.seen + pre.length + 1 } post ∧
      net'.heap id = some { a with queued := false, isOpen := a.isOpen && !r.close } ∧
      net'.list = net.list ∧ net'.total = net.total := by
  have hc := h.fly.count
  obtain ⟨net1, e1, e2, e3, e4, e5⟩ := readLoop_sim hr (fuel := net.count) h hne (by rw [hc]; simp) ha
  have hid0 : id ≠ 0 := by
    intro h0; rw [h0, h.zero] at ha; exact absurd ha (by simp)
  have hle : id ≤ net.total := by
    rcases Nat.lt_or_ge net.total id with h1 | h1
    · rw [h.fresh id h1] at ha; exact absurd ha (by simp)
    · exact h1
  refine ⟨net1.set id { a with queued := false, isOpen := a.isOpen && !r.close }, ?_, ?_, ?_, e4, e5⟩
  · unfold responseInternal
    simp only [ha]
    rw [if_neg (by rw [h.state]; simp), if_neg (by rw [hst]; simp), e1]
    simp only [finishResponse, e3]
    cases r.msg <;> rfl
  · refine RelX.frame e2 rfl rfl rfl rfl rfl ?_ e2.nodup (fun k _ => Iff.rfl) rfl rfl rfl rfl (fun _ _ => rfl) hid0 ?_
    · intro k hk; simp [Net.set, upd, hk]
    · rw [e5]; exact hle
  · simp [Net.set, upd]

/-- Sending a request puts its answer at the end. -/
theorem request_sim {id : Nat} {a : Sess α} {type : CmdType} {param : Option α} {c : Bool} {m : Msg α}
    (h : RelX step (some id) net st L) (ha : net.heap id = some a)
    (hq : Spec.ask step st ⟨a.command, type, id, a.isOpen, param⟩ = some (st', c, m)) :
    ∃ net', requestInternal net id type param = (net', .ok ()) ∧ RelX step (some id) net' st' (L ++ [⟨id, c, m⟩]) ∧
      net'.heap id = some { a with queued := true } ∧ net'.list = net.list ∧ net'.total = net.total ∧
      st'.seen = st.seen ∧ st'.sent = st.sent + 1 ∧ st'.sess = st.sess ∧ st'.total = st.total := by
  unfold Spec.ask at hq
  split at hq
  · rename_i sv c' m' hs
    simp only [Option.some.injEq, Prod.mk.injEq] at hq
    obtain ⟨rfl, rfl, rfl⟩ := hq
    have hid0 : id ≠ 0 := by
      intro h0; rw [h0, h.zero] at ha; exact absurd ha (by simp)
    have hle : id ≤ net.total := by
      rcases Nat.lt_or_ge net.total id with h1 | h1
      · rw [h.fresh id h1] at ha; exact absurd ha (by simp)
      · exact h1
    refine ⟨{ net with
        toServer := net.toServer ++ [⟨a.command, type, id, a.isOpen, param⟩]
        heap := upd net.heap id (some { a with queued := true }) }, ?_, ?_, ?_, rfl, rfl, rfl, rfl, rfl, rfl⟩
    · unfold requestInternal
      simp only [ha]
      rw [if_neg (by rw [h.state]; simp)]
    · obtain ⟨sv0, A, f1, f2, f3⟩ := h.fly
      have hlen := h.len
      refine ⟨h.state, h.total, ⟨sv0, A ++ [⟨id, c', m'⟩], f1, answers_append f2 hs, ?_⟩, ?_, ?_, ?_, h.nodup, ?_, ?_, h.mem, h.asyn, ?_, ?_⟩
      · rw [f3, List.append_assoc]
      · simp only [List.length_append, List.length_cons, List.length_nil]; omega
      · simp only [upd, if_neg (Ne.symm hid0)]; exact h.zero
      · intro k hk
        simp only at hk
        simp only [upd]
        rw [if_neg (by omega)]
        exact h.fresh k hk
      · intro k hk
        have hk' : k ≠ id := by simpa using hk
        simp only [upd, if_neg hk']; exact h.absent k hk
      · intro k b s hk hb
        have hk' : k ≠ id := by simpa using hk
        simp only [upd, if_neg hk'] at hb
        exact h.heap k b s hk hb
      · intro k s p hk hs' he hp
        obtain ⟨q1, q2, q3⟩ := h.pend k s p hk hs' he hp
        refine ⟨q1, by simp only; omega, fun hlt => ?_⟩
        have := q3 hlt
        rw [List.getElem?_append_left]
        · exact this
        · rcases Nat.lt_or_ge (p.seq - st.seen - 1) L.length with h1 | h1
          · exact h1
          · rw [List.getElem?_eq_none h1] at this; exact absurd this (by simp)
      · intro i r hi hk
        have hk' : r.sessionId ≠ id := by simpa using hk
        by_cases hlt : i < L.length
        · rw [List.getElem?_append_left hlt] at hi
          exact h.flyp i r hi hk
        · rw [List.getElem?_append_right (by omega)] at hi
          have hr := List.mem_of_getElem? hi
          simp only [List.mem_singleton] at hr
          rw [hr] at hk'
          exact absurd rfl hk'
    · simp [upd]
  · exact absurd hq (by simp)

/-- A session that has no answer outstanding has none on the connection. -/
theorem RelX.noFly {id : Nat} {s : Spec.Sess α} (h : RelX step none net st L) (hs : st.sess id = some s)
    (hp : s.pending = none) : ∀ r ∈ L, r.sessionId ≠ id := by
  intro r hr hid
  obtain ⟨i, hi⟩ := List.getElem?_of_mem hr
  obtain ⟨s', p, g1, _, g3, _⟩ := h.flyp i r hi (by simp)
  rw [hid, hs] at g1
  simp only [Option.some.injEq] at g1
  subst g1
  rw [hp] at g3
  exact absurd g3 (by simp)

/-- Nor has one that has ended, or whose answer has arrived. -/
theorem RelX.noFly' {id : Nat} {s : Spec.Sess α} {p : Spec.Pending α} (h : RelX step none net st L) (hs : st.sess id = some s)
    (hp : s.pending = some p) (hle : p.seq ≤ st.seen) : ∀ r ∈ L, r.sessionId ≠ id := by
  intro r hr hid
  obtain ⟨i, hi⟩ := List.getElem?_of_mem hr
  obtain ⟨s', p', g1, _, g3, g4, _⟩ := h.flyp i r hi (by simp)
  rw [hid, hs] at g1
  simp only [Option.some.injEq] at g1
  subst g1
  rw [hp] at g3
  simp only [Option.some.injEq] at g3
  subst g3
  omega

/-- Where the answer of a session is on the connection. -/
theorem RelX.split {id : Nat} {s : Spec.Sess α} {p : Spec.Pending α} (h : RelX step none net st L) (hs : st.sess id = some s)
    (he : s.ended = false) (hp : s.pending = some p) (hlt : st.seen < p.seq) :
    ∃ pre post, L = pre ++ ⟨id, p.close, p.msg⟩ :: post ∧ (∀ r ∈ pre, r.sessionId ≠ id) ∧ (∀ r ∈ post, r.sessionId ≠ id) ∧
      p.seq = st.seen + pre.length + 1 := by
  have hg := (h.pend id s p (by simp) hs he hp).2.2 hlt
  have hpos : p.seq - st.seen - 1 < L.length := by
    rcases Nat.lt_or_ge (p.seq - st.seen - 1) L.length with h1 | h1
    · exact h1
    · rw [List.getElem?_eq_none h1] at hg; exact absurd hg (by simp)
  have key : ∀ i (r : Resp α), L[i]? = some r → r.sessionId = id → i = p.seq - st.seen - 1 := by
    intro i r hi hr
    obtain ⟨s', p', g1, _, g3, g4, _⟩ := h.flyp i r hi (by simp)
    rw [hr, hs] at g1
    simp only [Option.some.injEq] at g1
    subst g1
    rw [hp] at g3
    simp only [Option.some.injEq] at g3
    subst g3
    omega
  refine ⟨L.take (p.seq - st.seen - 1), L.drop (p.seq - st.seen - 1 + 1), ?_, ?_, ?_, ?_⟩
  · rw [List.getElem?_eq_getElem hpos] at hg
    simp only [Option.some.injEq] at hg
    rw [← hg, List.getElem_cons_drop, List.take_append_drop]
  · intro r hr hid
    obtain ⟨i, hi⟩ := List.getElem?_of_mem hr
    rw [List.getElem?_take] at hi
    split at hi
    · have := key i r hi hid; omega
    · exact absurd hi (by simp)
  · intro r hr hid
    obtain ⟨i, hi⟩ := List.getElem?_of_mem hr
    rw [List.getElem?_drop] at hi
    have := key _ r hi hid
    omega
  · simp; omega

theorem andThen_ok {β γ : Type} {v : β} {k : Net S α → β → Net S α × Out γ} : andThen (net, .ok v) k = k net v := rfl

/-- Ask and wait. -/
theorem sync_sim {id : Nat} {a : Sess α} {type : CmdType} {param : Option α} {c : Bool} {m : Msg α}
    (h : RelX step (some id) net st L) (hL : ∀ r ∈ L, r.sessionId ≠ id) (ha : net.heap id = some a) (hst : a.stored = false)
    (hq : Spec.ask step st ⟨a.command, type, id, a.isOpen, param⟩ = some (st', c, m)) :
    ∃ net', (andThen (requestInternal net id type param) fun net _ => responseInternal step net id) = (net', Spec.result m) ∧
      RelX step (some id) net' st'.waited [] ∧
      net'.heap id = some { a with queued := false, isOpen := a.isOpen && !c } ∧ net'.list = net.list ∧
      net'.total = net.total ∧ st'.sess = st.sess ∧ st'.total = st.total := by
  obtain ⟨net1, e1, e2, e3, e4, e5, e6, e7, e8, e9⟩ := request_sim h ha hq
  obtain ⟨net2, f1, f2, f3, f4, f5⟩ := response_sim (r := ⟨id, c, m⟩) rfl e2 hL e3 hst
  refine ⟨net2, ?_, ?_, f3, by rw [f4, e4], by rw [f5, e5], e8, e9⟩
  · rw [e1, andThen_ok, f1]
  · have : st'.seen + L.length + 1 = st'.sent := by rw [e6, e7, h.len]
    rw [this] at f2
    exact f2

/-- The end of giving a session up. -/
theorem finish_sim {id : Nat} {a : Sess α} {s : Spec.Sess α}
    (h : RelX step (some id) net st L) (hL : ∀ r ∈ L, r.sessionId ≠ id) (ha : net.heap id = some a)
    (hcmd : a.command = s.command) (hop : a.isOpen = s.isOpen) (hst : a.isOpen = true → a.stored = false)
    (hmem : id ∈ net.list) (hf : Spec.finish step st id s = some st') :
    ∃ net' L', (andThen (freeCancel step net id) fun net _ => freeRemove net id) = (net', .ok ()) ∧
      RelX step (some id) net' st' L' ∧ (∀ r ∈ L', r.sessionId ≠ id) ∧
      (∃ a', net'.heap id = some a' ∧ a'.callback = a.callback) ∧ id ∉ net'.list ∧
      (∃ s', st'.sess id = some s' ∧ s'.ended = true ∧ s'.started = s.started ∧ s'.async = s.async) := by
  have hid0 : id ≠ 0 := by
    intro h0; rw [h0, h.zero] at ha; exact absurd ha (by simp)
  have hle : id ≤ net.total := by
    rcases Nat.lt_or_ge net.total id with h1 | h1
    · rw [h.fresh id h1] at ha; exact absurd ha (by simp)
    · exact h1
  have remove : ∀ (net1 : Net S α) (st1 : Spec.St S α) (L1 : List (Resp α)) (a1 : Sess α) (s1 : Spec.Sess α),
      RelX step (some id) net1 st1 L1 → net1.heap id = some a1 → id ∈ net1.list → id ≤ net1.total →
      ∃ net', freeRemove net1 id = (net', .ok ()) ∧ RelX step (some id) net' (st1.put id (some s1)) L1 ∧
        net'.heap id = some a1 ∧ id ∉ net'.list := by
    intro net1 st1 L1 a1 s1 hr ha1 hm1 hle1
    have halive := hr.alive (fun k hk => by simp only [Option.some.injEq] at hk; subst hk; simp [ha1])
    refine ⟨{ net1 with list := net1.list.eraseIdx (net1.list.idxOf id) }, ?_, ?_, ha1, ?_⟩
    · unfold freeRemove
      rw [findIdx_ok hm1 halive]
    · refine RelX.frame hr rfl rfl rfl rfl rfl (fun _ _ => rfl) ?_ ?_ rfl rfl rfl rfl ?_ hid0 hle1
      · exact hr.nodup.sublist (List.eraseIdx_sublist ..)
      · intro k hk
        simp only [← List.erase_eq_eraseIdx_of_idxOf (l := net1.list) (a := id) (i := _) rfl]
        exact List.mem_erase_of_ne hk
      · intro k hk; simp [Spec.St.put, hk]
    · simp only [← List.erase_eq_eraseIdx_of_idxOf (l := net1.list) (a := id) (i := _) rfl]
      exact hr.nodup.not_mem_erase
  unfold Spec.finish at hf
  split at hf
  · rename_i hso
    rw [hso] at hop
    split at hf
    · rename_i st1 d hq
      simp only [Option.some.injEq] at hf
      subst hf
      rw [← hcmd] at hq
      obtain ⟨net1, e1, e2, e3, e4, e5, e6, e7⟩ := sync_sim (type := .cnc) (param := none) h hL ha (hst hop) (by rw [hop]; exact hq)
      obtain ⟨net2, f1, f2, f3, f4⟩ := remove net1 st1.waited [] _ { s with isOpen := false, ended := true, pending := none } e2 e3
        (by rw [e4]; exact hmem) (by rw [e5]; exact hle)
      refine ⟨net2, [], ?_, f2, by simp, ⟨_, f3, rfl⟩, f4, ⟨{ s with isOpen := false, ended := true, pending := none }, by simp [Spec.St.put], rfl, rfl, rfl⟩⟩
      have : freeCancel step net id = (net1, .ok ()) := by
        unfold freeCancel
        simp only [ha, hop, if_true]
        have e1' := e1
        cases hri : requestInternal net id .cnc (none : Option α) with
        | mk n o =>
          rw [hri] at e1'
          cases o with
          | ok v =>
            rw [andThen_ok] at e1' ⊢
            rw [e1']
            rfl
          | raised x y => simp [andThen, Spec.result] at e1'
          | err e => simp [andThen, Spec.result] at e1'
          | hang => simp [andThen, Spec.result] at e1'
          | ub => simp [andThen, Spec.result] at e1'
      rw [this, andThen_ok, f1]
    · exact absurd hf (by simp)
  · rename_i hso
    simp only [Bool.not_eq_true] at hso
    rw [hso] at hop
    simp only [Option.some.injEq] at hf
    subst hf
    obtain ⟨net2, f1, f2, f3, f4⟩ := remove net st L _ { s with ended := true, pending := none } h ha hmem hle
    refine ⟨net2, L, ?_, f2, hL, ⟨_, f3, rfl⟩, f4, ⟨{ s with ended := true, pending := none }, by simp [Spec.St.put], rfl, rfl, rfl⟩⟩
    have : freeCancel step net id = (net, .ok ()) := by
      unfold freeCancel
      simp [ha, hop]
    rw [this, andThen_ok, f1]

/-- Giving a session up. -/
theorem giveUp_sim {id : Nat} {a a0 : Sess α} {s : Spec.Sess α} {net0 : Net S α}
    (h : RelX step none net0 st L) (hs : st.sess id = some s) (he : s.ended = false) (hstd : s.started = true)
    (ha0 : net0.heap id = some a0)
    (hx : RelX step (some id) net st L) (ha : net.heap id = some a) (haa : a = { a0 with callback := a.callback })
    (hlist : net.list = net0.list)
    (hg : Spec.giveUp step st id s = some st') :
    ∃ net' L', freeResource step net id = (net', .ok ()) ∧
      RelX step (some id) net' st' L' ∧ (∀ r ∈ L', r.sessionId ≠ id) ∧
      (∃ a', net'.heap id = some a' ∧ a'.callback = a.callback) ∧ id ∉ net'.list ∧
      (∃ s', st'.sess id = some s' ∧ s'.ended = true ∧ s'.started = s.started ∧ s'.async = s.async) := by
  have hid0 : id ≠ 0 := by
    intro h0; rw [h0, hx.zero] at ha; exact absurd ha (by simp)
  have hle : id ≤ net.total := by
    rcases Nat.lt_or_ge net.total id with h1 | h1
    · rw [hx.fresh id h1] at ha; exact absurd ha (by simp)
    · exact h1
  have hmem : id ∈ net.list := by
    rw [hlist]; exact (h.mem id (by simp)).mpr ⟨s, hs, hstd, he⟩
  obtain ⟨_, k⟩ := h.heap id a0 s (by simp) ha0 hs
  obtain ⟨k1, k2, k3, k4, k5, k6⟩ := k he
  have r1 : a.command = s.command := by rw [haa]; exact k1
  have r3 : a.isOpen = s.isOpen := by rw [haa]; exact k3
  have r4 : a.queued = s.pending.isSome := by rw [haa]; exact k4
  have r5 : a.stored = a0.stored := by rw [haa]
  have r6 : a.slot = a0.slot := by rw [haa]
  unfold Spec.giveUp at hg
  cases hp : s.pending with
  | none =>
    rw [hp] at hg r4
    simp only at hg
    have : freeQueued step net id = (net, .ok ()) := by
      unfold freeQueued
      simp [ha, r4]
    unfold freeResource
    rw [this, andThen_ok]
    exact finish_sim hx (h.noFly hs hp) ha r1 r3 (fun _ => by rw [r5]; exact k5 hp) hmem hg
  | some p =>
    rw [hp] at hg r4
    simp only [Option.isSome_some] at r4
    simp only at hg
    split at hg
    · rename_i hseq
      split at hg
      · exact absurd hg (by simp)
      · rename_i hno
        have hsto : a.stored = true := by rw [r5]; exact ((k6 p hp).1 hseq).1
        have hq : freeQueued step net id = (net.set id { a with slot := freeSlot a.slot }, .ok ()) := by
          unfold freeQueued
          simp [ha, r4, hsto]
        unfold freeResource
        rw [hq, andThen_ok]
        have hx2 : RelX step (some id) (net.set id { a with slot := freeSlot a.slot }) st L := by
          refine RelX.frame hx rfl rfl rfl rfl rfl ?_ hx.nodup (fun _ _ => Iff.rfl) rfl rfl rfl rfl (fun _ _ => rfl) hid0 hle
          intro k hk; simp [Net.set, upd, hk]
        exact finish_sim (a := { a with slot := freeSlot a.slot }) hx2 (h.noFly' hs hp hseq) (by simp [Net.set, upd]) r1 r3
          (fun ho => absurd (r3 ▸ ho) hno) hmem hg
    · rename_i hseq
      have hlt : st.seen < p.seq := by omega
      have hsto : a.stored = false := by rw [r5]; exact (k6 p hp).2 hlt
      obtain ⟨pre, post, rfl, hpre, hpost, hsq⟩ := h.split hs he hp hlt
      obtain ⟨net1, e1, e2, e3, e4, e5⟩ := response_sim (r := ⟨id, p.close, p.msg⟩) rfl hx hpre ha hsto
      split at hg
      · exact absurd hg (by simp)
      · rename_i d hmsg
        have hq : freeQueued step net id = (net1, .ok ()) := by
          unfold freeQueued
          simp only [ha, r4, hsto, if_true]
          rw [if_neg (by simp), e1]
          simp only [hmsg, Spec.result]
          rfl
        unfold freeResource
        rw [hq, andThen_ok]
        have hw : st.waitedFor p.seq = { st with seen := st.seen + pre.length + 1 } := by
          simp only [Spec.St.waitedFor, Spec.St.mk.injEq, true_and]
          omega
        rw [hw] at hg
        exact finish_sim (a := { a with queued := false, isOpen := a.isOpen && !p.close })
          (s := { s with isOpen := s.isOpen && !p.close, pending := none }) e2 hpost e3 r1
          (by simp only [r3]) (fun _ => hsto) (by rw [e4]; exact hmem) hg

end Verif.Protocol
