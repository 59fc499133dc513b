import Verif.Protocol.ClientLemmas

/-!
# Every call does what the specification says
-/

namespace Verif.Protocol

variable {S α : Type} {step : S → Req α → SOut S α} {net : Net S α} {st st' : Spec.St S α} {L : List (Resp α)}

theorem RelX.idPos {x : Option Nat} {id : Nat} {a : Sess α} (h : RelX step x net st L) (ha : net.heap id = some a) :
    id ≠ 0 ∧ id ≤ net.total := by
  refine ⟨fun h0 => ?_, ?_⟩
  · rw [h0, h.zero] at ha; exact absurd ha (by simp)
  · rcases Nat.lt_or_ge net.total id with h1 | h1
    · rw [h.fresh id h1] at ha; exact absurd ha (by simp)
    · exact h1

/-- The session left out comes back without an answer outstanding. -/
theorem RelX.backLive {id : Nat} {a : Sess α} {s : Spec.Sess α} (h : RelX step (some id) net st L)
    (hL : ∀ r ∈ L, r.sessionId ≠ id) (ha : net.heap id = some a) (hr : SRel a s st.seen) (hp : s.pending = none)
    (hm : id ∈ net.list ↔ s.started = true ∧ s.ended = false) (has : (s.async = true ∨ s.isOpen = true) → s.started = true) :
    RelX step none net (st.put id (some s)) L := by
  obtain ⟨hid0, hle⟩ := h.idPos ha
  have hf : RelX step (some id) net (st.put id (some s)) L :=
    RelX.frame h rfl rfl rfl rfl rfl (fun _ _ => rfl) h.nodup (fun _ _ => Iff.rfl) rfl rfl rfl rfl
      (fun k hk => by simp [Spec.St.put, hk]) hid0 hle
  refine RelX.back hf hL ?_ ?_ ?_ ?_ ?_
  · simp [Spec.St.put, ha]
  · intro a' s' ha' hs'
    rw [ha] at ha'
    simp only [Spec.St.put, if_true, Option.some.injEq] at ha' hs'
    subst ha'; subst hs'
    exact hr
  · simp only [Spec.St.put, if_true, Option.some.injEq, hm]
    exact ⟨fun h => ⟨s, rfl, h⟩, fun ⟨s', hs', h⟩ => by subst hs'; exact h⟩
  · intro s' hs'
    simp only [Spec.St.put, if_true, Option.some.injEq] at hs'
    subst hs'
    exact has
  · intro s' p hs' _ hp'
    simp only [Spec.St.put, if_true, Option.some.injEq] at hs'
    subst hs'
    rw [hp] at hp'
    exact absurd hp' (by simp)

/-- The session left out is gone. -/
theorem RelX.backGone {id : Nat} (h : RelX step (some id) net st L) (hL : ∀ r ∈ L, r.sessionId ≠ id)
    (hid0 : id ≠ 0) (hle : id ≤ net.total) (hm : id ∉ net.list) :
    RelX step none { net with heap := upd net.heap id none } (st.put id none) L := by
  have hf : RelX step (some id) { net with heap := upd net.heap id none } (st.put id none) L :=
    RelX.frame h rfl rfl rfl rfl rfl (fun k hk => by simp [upd, hk]) h.nodup (fun _ _ => Iff.rfl) rfl rfl rfl rfl
      (fun k hk => by simp [Spec.St.put, hk]) hid0 hle
  refine RelX.back hf hL ?_ ?_ ?_ ?_ ?_
  · simp [Spec.St.put, upd]
  · intro a' s' ha'
    simp [upd] at ha'
  · simp [Spec.St.put, hm]
  · intro s' hs'
    simp [Spec.St.put] at hs'
  · intro s' p hs'
    simp [Spec.St.put] at hs'

/-- A session that can be used, on both sides. -/
theorem RelX.liveSess {id : Nat} {s : Spec.Sess α} (h : RelX step none net st L) (hs : st.sess id = some s)
    (he : s.ended = false) :
    ∃ a, net.heap id = some a ∧ a.callback = s.started ∧ a.command = s.command ∧ a.async = s.async ∧ a.isOpen = s.isOpen ∧
      a.queued = s.pending.isSome ∧ (s.pending = none → a.stored = false) ∧ (id ∈ net.list ↔ s.started = true) ∧
      ∀ p, s.pending = some p →
          (p.seq ≤ st.seen → a.stored = true ∧ a.close = p.close ∧ a.slot = .live p.msg) ∧ (st.seen < p.seq → a.stored = false) := by
  cases ha : net.heap id with
  | none =>
    rw [h.absent id (by simp), hs] at ha
    exact absurd ha (by simp)
  | some a =>
    obtain ⟨k0, k⟩ := h.heap id a s (by simp) ha hs
    obtain ⟨k1, k2, k3, k4, k5, k6⟩ := k he
    refine ⟨a, rfl, by rw [k0, he]; simp, k1, k2, k3, k4, k5, ?_, k6⟩
    rw [h.mem id (by simp)]
    exact ⟨fun ⟨s', h1, h2, _⟩ => by rw [hs] at h1; simp only [Option.some.injEq] at h1; subst h1; exact h2,
      fun h1 => ⟨s, hs, h1, he⟩⟩

theorem live_some {id : Nat} {s : Spec.Sess α} (h : Spec.live st id = some s) : st.sess id = some s ∧ s.ended = false := by
  unfold Spec.live at h
  split at h
  · split at h
    · exact absurd h (by simp)
    · rename_i s' hs hn
      simp only [Option.some.injEq] at h
      subst h
      exact ⟨hs, by simpa using hn⟩
  · exact absurd h (by simp)

/-- A session without an answer outstanding is as the specification says if its fields are. -/
theorem srel_none {a : Sess α} {s : Spec.Sess α} {seen : Nat} (h1 : a.callback = (s.started && !s.ended))
    (h2 : a.command = s.command) (h3 : a.async = s.async) (h4 : a.isOpen = s.isOpen) (h5 : a.queued = false)
    (h6 : s.pending = none) (h7 : a.stored = false) : SRel a s seen :=
  ⟨h1, fun _ => ⟨h2, h3, h4, by rw [h5, h6]; rfl, fun _ => h7, fun p hp => by rw [h6] at hp; exact absurd hp (by simp)⟩⟩

/-- A new session. -/
theorem new_sim (command : Nat) (async : Bool) (h : RelX step none net st L) :
    RelX step none (sessionNew net command async).1
      (({ st with total := st.total + 1 } : Spec.St S α).put (st.total + 1) (some ⟨command, async, false, async, false, none⟩)) L := by
  have ht := h.total
  have hfr : net.heap (net.total + 1) = none := h.fresh _ (by omega)
  have hsfr : st.sess (net.total + 1) = none := (h.absent _ (by simp)).mp hfr
  have hnl : net.total + 1 ∉ net.list := by
    intro hm
    obtain ⟨s, hs, _⟩ := (h.mem _ (by simp)).mp hm
    rw [hsfr] at hs
    exact absurd hs (by simp)
  have hne : ∀ r ∈ L, r.sessionId ≠ net.total + 1 := by
    intro r hr hid
    obtain ⟨i, hi⟩ := List.getElem?_of_mem hr
    obtain ⟨s', p, g1, _⟩ := h.flyp i r hi (by simp)
    rw [hid, hsfr] at g1
    exact absurd g1 (by simp)
  rw [← ht]
  refine ⟨h.state, by simp [sessionNew, Spec.St.put], ?_, h.len, ?_, ?_, ?_, ?_, ?_, ?_, ?_, ?_, ?_⟩
  · obtain ⟨sv, A, f1, f2, f3⟩ := h.fly
    exact ⟨sv, A, f1, f2, f3⟩
  · simp only [sessionNew, upd]
    rw [if_neg (by omega)]; exact h.zero
  · intro k hk
    simp only [sessionNew] at hk
    simp only [sessionNew, upd]
    rw [if_neg (by omega)]; exact h.fresh k (by omega)
  · simp only [sessionNew]
    split
    · exact List.nodup_append.mpr ⟨h.nodup, by simp, by
        intro a ha b hb
        simp only [List.mem_singleton] at hb
        subst hb
        intro hab
        subst hab
        exact hnl ha⟩
    · exact h.nodup
  · intro k _
    by_cases hk : k = net.total + 1
    · simp [sessionNew, upd, Spec.St.put, hk]
    · simp only [sessionNew, upd, Spec.St.put, if_neg hk]; exact h.absent k (by simp)
  · intro k a s _ ha hs
    by_cases hk : k = net.total + 1
    · simp only [sessionNew, upd, if_pos hk, Option.some.injEq] at ha
      simp only [Spec.St.put, if_pos hk, Option.some.injEq] at hs
      subst ha; subst hs
      exact srel_none (by simp) rfl rfl rfl rfl rfl rfl
    · simp only [sessionNew, upd, if_neg hk] at ha
      simp only [Spec.St.put, if_neg hk] at hs
      exact h.heap k a s (by simp) ha hs
  · intro k _
    by_cases hk : k = net.total + 1
    · subst hk
      cases async <;> simp [sessionNew, Spec.St.put, hnl]
    · simp only [Spec.St.put, if_neg hk]
      rw [← h.mem k (by simp)]
      cases async <;> simp [sessionNew, hk]
  · intro k s _ hs ha
    by_cases hk : k = net.total + 1
    · simp only [Spec.St.put, if_pos hk, Option.some.injEq] at hs
      subst hs; simpa using ha
    · simp only [Spec.St.put, if_neg hk] at hs
      exact h.asyn k s (by simp) hs ha
  · intro k s p _ hs he hp
    by_cases hk : k = net.total + 1
    · simp only [Spec.St.put, if_pos hk, Option.some.injEq] at hs
      subst hs; simp at hp
    · simp only [Spec.St.put, if_neg hk] at hs
      exact h.pend k s p (by simp) hs he hp
  · intro i r hi _
    simp only [Spec.St.put]
    rw [if_neg (hne r (List.mem_of_getElem? hi))]
    exact h.flyp i r hi (by simp)

/-- A request without a session. -/
theorem simple_sim {command : Nat} {param : Option α} {o : Out (Option α)} (h : RelX step none net st L)
    (hc : Spec.call.simple step st command param = some (st', o)) :
    ∃ L', RelX step none (clientRequest step net command param).1 st' L' ∧ (clientRequest step net command param).2 = o := by
  unfold Spec.call.simple at hc
  split at hc
  · exact absurd hc (by simp)
  · rename_i st1 c m hq
    simp only [Option.some.injEq, Prod.mk.injEq] at hc
    obtain ⟨rfl, rfl⟩ := hc
    have hn := new_sim command false h
    have ht := h.total
    have hfr : net.heap (net.total + 1) = none := h.fresh _ (by omega)
    have hsfr : st.sess (net.total + 1) = none := (h.absent _ (by simp)).mp hfr
    have hnl : net.total + 1 ∉ net.list := by
      intro hm
      obtain ⟨s, hs, _⟩ := (h.mem _ (by simp)).mp hm
      rw [hsfr] at hs
      exact absurd hs (by simp)
    have hne : ∀ r ∈ L, r.sessionId ≠ net.total + 1 := by
      intro r hr hid
      obtain ⟨i, hi⟩ := List.getElem?_of_mem hr
      obtain ⟨s', p, g1, _⟩ := h.flyp i r hi (by simp)
      rw [hid, hsfr] at g1
      exact absurd g1 (by simp)
    rw [← ht] at hn
    have hx := hn.leave (net.total + 1)
    -- the request is the same for the state with the session
    let tmp : Nat → Option (Spec.Sess α) := fun k =>
      if k = net.total + 1 then some (Spec.Sess.mk command false false false false none) else st.sess k
    have hq' : Spec.ask step (({ st with total := net.total + 1 } : Spec.St S α).put (net.total + 1)
        (some ⟨command, false, false, false, false, none⟩)) ⟨command, .prc, net.total + 1, false, param⟩ =
        some (Spec.St.mk st1.server (net.total + 1) tmp st1.sent st1.seen, c, m) := by
      unfold Spec.ask at hq ⊢
      simp only [Spec.St.put]
      rw [← ht] at hq
      split at hq
      · rename_i sv c' m' hs
        simp only [Option.some.injEq, Prod.mk.injEq] at hq
        obtain ⟨rfl, rfl, rfl⟩ := hq
        rfl
      · exact absurd hq (by simp)
    have hs1 : st1.sess = st.sess ∧ st1.total = st.total := by
      unfold Spec.ask at hq
      split at hq
      · simp only [Option.some.injEq, Prod.mk.injEq] at hq
        obtain ⟨rfl, _, _⟩ := hq
        exact ⟨rfl, rfl⟩
      · exact absurd hq (by simp)
    obtain ⟨net1, e1, e2, e3, e4, e5, e6, e7⟩ := sync_sim (id := net.total + 1)
      (a := ⟨command, false, false, false, false, false, .null, false⟩) (type := .prc) (param := param) hx hne
      (by simp [sessionNew, upd]) rfl hq'
    have hcr : clientRequest step net command param =
        ({ net1 with heap := upd net1.heap (net.total + 1) none }, Spec.result m) := by
      unfold clientRequest
      simp only [sessionNew, andThen_ok] at e1 ⊢
      rw [e1]
    rw [hcr]
    refine ⟨[], ?_, rfl⟩
    have hg := e2.backGone (by simp) (by omega) (by rw [e5]; simp [sessionNew]) (by rw [e4]; simpa [sessionNew] using hnl)
    have hst : (Spec.St.waited (Spec.St.mk st1.server (net.total + 1) tmp st1.sent st1.seen)).put
          (net.total + 1) none = { st1.waited with total := st1.total + 1 } := by
      simp only [Spec.St.waited, Spec.St.put, Spec.St.mk.injEq, true_and, and_true]
      refine ⟨by rw [hs1.2, ht], ?_⟩
      funext k
      rw [hs1.1]
      by_cases hk : k = net.total + 1
      · simp [hk, hsfr]
      · simp [hk, tmp]
    rw [← hst]
    exact hg

/-- Opening a session. -/
theorem open_sim {id : Nat} {param : Option α} {o : Out (Option α)} (h : RelX step none net st L)
    (hc : Spec.call step st (.open id param) = some (st', o)) :
    ∃ L', RelX step none (sessionOpen step net id param).1 st' L' ∧ (sessionOpen step net id param).2 = o := by
  simp only [Spec.call] at hc
  split at hc
  · exact absurd hc (by simp)
  · rename_i s hl
    obtain ⟨hs, he⟩ := live_some hl
    split at hc
    · exact absurd hc (by simp)
    · rename_i hg
      simp only [Bool.or_eq_true, Bool.and_eq_true, Bool.not_eq_true', not_or, not_and, Bool.not_eq_true,
        Option.isSome_eq_false_iff, Option.isNone_iff_eq_none] at hg
      obtain ⟨⟨g1, g2⟩, g3⟩ := hg
      split at hc
      · exact absurd hc (by simp)
      · rename_i st1 c m hq
        simp only [Option.some.injEq, Prod.mk.injEq] at hc
        obtain ⟨rfl, rfl⟩ := hc
        obtain ⟨a, ha, k0, k1, k2, k3, k4, k5, k6, _⟩ := h.liveSess hs he
        obtain ⟨hid0, hle⟩ := h.idPos ha
        rw [← k1] at hq
        have hq' : Spec.ask step st ⟨a.command, .opn, id, a.isOpen, param⟩ = some (st1, c, m) := by
          rw [k3, g1]; exact hq
        obtain ⟨net1, e1, e2, e3, e4, e5, e6, e7, e8, e9⟩ := request_sim (h.leave id) ha hq'
        have hL := h.noFly hs g2
        -- the session is tracked
        obtain ⟨net2, f1, f2, f3, f4, f5⟩ : ∃ net2, sessionOpened net1 id = (net2, .ok ()) ∧
            RelX step (some id) net2 st1 (L ++ [⟨id, c, m⟩]) ∧
            net2.heap id = some { a with queued := true, isOpen := true, callback := true } ∧ id ∈ net2.list ∧
            net2.total = net1.total := by
          have hcb : (a.callback || !a.async) = true := by
            cases has : a.async with
            | false => simp
            | true => rw [k0, h.asyn id s (by simp) hs (.inl (by rw [← k2]; exact has))]; rfl
          refine ⟨{ net1 with
              heap := upd net1.heap id (some { a with queued := true, isOpen := true, callback := true })
              list := if a.async then net1.list else net1.list ++ [id] }, ?_, ?_, by simp [upd], ?_, rfl⟩
          · unfold sessionOpened
            simp only [e3, hcb]
          · refine RelX.frame e2 rfl rfl rfl rfl rfl (fun k hk => by simp [upd, hk]) ?_ ?_ rfl rfl rfl rfl (fun _ _ => rfl) hid0
              (by rw [e5]; exact hle)
            · simp only
              split
              · exact e2.nodup
              · rename_i hna
                refine List.nodup_append.mpr ⟨e2.nodup, by simp, ?_⟩
                intro x hx y hy hxy
                simp only [List.mem_singleton] at hy
                subst hy; subst hxy
                rw [e4, k6] at hx
                rw [k2] at hna
                have := g3 (by simpa using hna)
                rw [hx] at this
                exact absurd this (by simp)
            · intro k hk
              simp only
              split
              · exact Iff.rfl
              · simp [hk]
          · simp only
            split
            · rename_i has
              rw [e4, k6]
              exact h.asyn id s (by simp) hs (.inl (by rw [← k2]; exact has))
            · simp
        obtain ⟨net3, d1, d2, d3, d4, d5⟩ := response_sim (r := ⟨id, c, m⟩) rfl f2 hL f3 (k5 g2)
        have hso : sessionOpen step net id param = (net3, Spec.result m) := by
          unfold sessionOpen
          rw [e1, andThen_ok, f1, andThen_ok]
          exact d1
        rw [hso]
        refine ⟨[], ?_, rfl⟩
        have hseen : st1.seen + L.length + 1 = st1.sent := by rw [e6, e7, h.len]
        rw [hseen] at d2
        exact RelX.backLive (st := st1.waited) d2 (by simp) d3
          (srel_none (by simp [he]) k1 k2 (by simp) rfl g2 (k5 g2)) g2 (by rw [d4]; simp [f4, he]) (fun _ => rfl)

/-- Asking and waiting in a session. -/
theorem sessRequest_sim {id : Nat} {param : Option α} {o : Out (Option α)} (h : RelX step none net st L)
    (hc : Spec.call step st (.sessRequest id param) = some (st', o)) :
    ∃ L', RelX step none (sessionRequest step net id param).1 st' L' ∧ (sessionRequest step net id param).2 = o := by
  simp only [Spec.call] at hc
  split at hc
  · exact absurd hc (by simp)
  · rename_i s hl
    obtain ⟨hs, he⟩ := live_some hl
    split at hc
    · exact absurd hc (by simp)
    · rename_i hg
      have g2 : s.pending = none := by simpa using hg
      split at hc
      · exact absurd hc (by simp)
      · rename_i st1 c m hq
        simp only [Option.some.injEq, Prod.mk.injEq] at hc
        obtain ⟨rfl, rfl⟩ := hc
        obtain ⟨a, ha, k0, k1, k2, k3, k4, k5, k6, _⟩ := h.liveSess hs he
        have hasy : ∀ b, (s.async = true ∨ (s.isOpen && b) = true) → s.started = true := fun b hb =>
          h.asyn id s (by simp) hs (hb.imp (fun h => h) fun h => by simp only [Bool.and_eq_true] at h; exact h.1)
        rw [← k1, ← k3] at hq
        obtain ⟨net1, e1, e2, e3, e4, e5, e6, e7⟩ := sync_sim (h.leave id) (h.noFly hs g2) ha (k5 g2) hq
        unfold sessionRequest
        rw [e1]
        refine ⟨[], ?_, rfl⟩
        exact RelX.backLive e2 (by simp) e3 (srel_none (by simp [he, k0]) k1 k2 (by simp [k3]) rfl g2 (k5 g2)) g2
          (by rw [e4, k6]; simp [he]) (hasy _)

/-- Asking without waiting. -/
theorem requestAsync_sim {id : Nat} {param : Option α} {o : Out (Option α)} (h : RelX step none net st L)
    (hc : Spec.call step st (.requestAsync id param) = some (st', o)) :
    ∃ L', RelX step none (sessionRequestAsync net id param).1 st' L' ∧ (sessionRequestAsync net id param).2 = o := by
  simp only [Spec.call] at hc
  split at hc
  · exact absurd hc (by simp)
  · rename_i s hl
    obtain ⟨hs, he⟩ := live_some hl
    split at hc
    · exact absurd hc (by simp)
    · rename_i hg
      simp only [Bool.or_eq_true, Bool.not_eq_true', not_or, Bool.not_eq_true, Bool.not_eq_false,
        Option.isSome_eq_false_iff, Option.isNone_iff_eq_none] at hg
      obtain ⟨g2, gas⟩ := hg
      split at hc
      · exact absurd hc (by simp)
      · rename_i st1 c m hq
        simp only [Option.some.injEq, Prod.mk.injEq] at hc
        obtain ⟨rfl, rfl⟩ := hc
        obtain ⟨a, ha, k0, k1, k2, k3, k4, k5, k6, _⟩ := h.liveSess hs he
        obtain ⟨hid0, hle⟩ := h.idPos ha
        rw [← k1, ← k3] at hq
        obtain ⟨net1, e1, e2, e3, e4, e5, e6, e7, e8, e9⟩ := request_sim (h.leave id) ha hq
        have hstd := h.asyn id s (by simp) hs (.inl gas)
        unfold sessionRequestAsync
        rw [e1, andThen_ok]
        refine ⟨L ++ [⟨id, c, m⟩], ?_, rfl⟩
        have hf : RelX step (some id) net1 (st1.put id (some { s with pending := some ⟨st1.sent, c, m⟩ })) (L ++ [⟨id, c, m⟩]) :=
          RelX.frame e2 rfl rfl rfl rfl rfl (fun _ _ => rfl) e2.nodup (fun _ _ => Iff.rfl) rfl rfl rfl rfl
            (fun k hk => by simp [Spec.St.put, hk]) hid0 (by rw [e5]; exact hle)
        refine RelX.backPending hf (h.noFly hs g2) (s := { s with pending := some ⟨st1.sent, c, m⟩ })
          (by simp [Spec.St.put]) e3 ?_ (by rw [e4, k6]; exact hstd) hstd he gas rfl
        refine ⟨by simp [he, k0], fun _ => ⟨k1, k2, k3, rfl, by simp, fun p hp => ?_⟩⟩
        simp only [Option.some.injEq] at hp
        subst hp
        refine ⟨fun hle => ?_, fun _ => k5 g2⟩
        simp only [Spec.St.put] at hle
        have := h.len
        omega

/-- Asking for the answer. -/
theorem response_call_sim {id : Nat} {o : Out (Option α)} (h : RelX step none net st L)
    (hc : Spec.call step st (.response id) = some (st', o)) :
    ∃ L', RelX step none (responseInternal step net id).1 st' L' ∧ (responseInternal step net id).2 = o := by
  simp only [Spec.call] at hc
  split at hc
  · exact absurd hc (by simp)
  · rename_i s hl
    obtain ⟨hs, he⟩ := live_some hl
    split at hc
    · exact absurd hc (by simp)
    · rename_i p hp
      simp only [Option.some.injEq, Prod.mk.injEq] at hc
      obtain ⟨rfl, rfl⟩ := hc
      obtain ⟨a, ha, k0, k1, k2, k3, k4, k5, k6, k7⟩ := h.liveSess hs he
      obtain ⟨hid0, hle⟩ := h.idPos ha
      have hasy : ∀ b, (s.async = true ∨ (s.isOpen && b) = true) → s.started = true := fun b hb =>
        h.asyn id s (by simp) hs (hb.imp (fun h => h) fun h => by simp only [Bool.and_eq_true] at h; exact h.1)
      by_cases hseq : p.seq ≤ st.seen
      · obtain ⟨j1, j2, j3⟩ := (k7 p hp).1 hseq
        have hri : responseInternal step net id =
            (net.set id { a with stored := false, queued := false, isOpen := a.isOpen && !p.close }, Spec.result p.msg) := by
          unfold responseInternal
          simp only [ha]
          rw [if_neg (by rw [h.state]; simp), if_pos j1]
          simp only [j3, finishResponse, Net.set, upd, if_true, j2]
          refine Prod.ext ?_ ?_
          · simp only [Net.mk.injEq, true_and, and_true]
            funext k
            by_cases hk : k = id
            · simp [hk, upd]
            · simp [hk, upd]
          · cases p.msg <;> rfl
        rw [hri]
        refine ⟨L, ?_, rfl⟩
        have hw : st.waitedFor p.seq = st := by
          simp only [Spec.St.waitedFor]
          rw [Nat.max_eq_left hseq]
        rw [hw]
        have hf : RelX step (some id) (net.set id { a with stored := false, queued := false, isOpen := a.isOpen && !p.close }) st L :=
          RelX.frame (h.leave id) rfl rfl rfl rfl rfl (fun k hk => by simp [Net.set, upd, hk]) h.nodup (fun _ _ => Iff.rfl)
            rfl rfl rfl rfl (fun _ _ => rfl) hid0 hle
        exact RelX.backLive (a := { a with stored := false, queued := false, isOpen := a.isOpen && !p.close }) hf
          (h.noFly' hs hp hseq) (by simp [Net.set, upd])
          (srel_none (by simp [he, k0]) k1 k2 (by simp [k3]) rfl rfl rfl) rfl
          (by simp only [Net.set]; rw [k6]; simp [he]) (hasy _)
      · have hlt : st.seen < p.seq := by omega
        obtain ⟨pre, post, rfl, hpre, hpost, hsq⟩ := h.split hs he hp hlt
        have hsto := (k7 p hp).2 hlt
        obtain ⟨net1, e1, e2, e3, e4, e5⟩ := response_sim (r := ⟨id, p.close, p.msg⟩) rfl (h.leave id) hpre ha hsto
        rw [e1]
        refine ⟨post, ?_, rfl⟩
        have hw : st.waitedFor p.seq = { st with seen := st.seen + pre.length + 1 } := by
          simp only [Spec.St.waitedFor, Spec.St.mk.injEq, true_and]
          omega
        rw [hw]
        exact RelX.backLive e2 hpost e3 (srel_none (by simp [he, k0]) k1 k2 (by simp [k3]) rfl rfl hsto) rfl
          (by rw [e4, k6]; simp [he]) (hasy _)

/-- The callback is cleared. -/
theorem clear_sim {id : Nat} {x : Option Nat} {a : Sess α} (h : RelX step x net st L) (hx : x = none ∨ x = some id)
    (ha : net.heap id = some a) :
    callbackClear net id = (net.set id { a with callback := false }, .ok ()) ∧
      RelX step (some id) (net.set id { a with callback := false }) st L := by
  obtain ⟨hid0, hle⟩ := h.idPos ha
  refine ⟨by unfold callbackClear; simp only [ha], ?_⟩
  have hl : RelX step (some id) net st L := by
    rcases hx with rfl | rfl
    · exact h.leave id
    · exact h
  exact RelX.frame hl rfl rfl rfl rfl rfl (fun k hk => by simp [Net.set, upd, hk]) h.nodup (fun _ _ => Iff.rfl)
    rfl rfl rfl rfl (fun _ _ => rfl) hid0 hle

theorem put_self {id : Nat} {s : Spec.Sess α} (h : st.sess id = some s) : st.put id (some s) = st := by
  have : (fun k => if k = id then some s else st.sess k) = st.sess := by
    funext k
    by_cases hk : k = id
    · simp [hk, h]
    · simp [hk]
  unfold Spec.St.put
  rw [this]

/-- Cancelling a session. -/
theorem cancel_sim {id : Nat} {o : Out (Option α)} (h : RelX step none net st L)
    (hc : Spec.call step st (.cancel id) = some (st', o)) :
    ∃ L', RelX step none (sessionCancel step net id).1 st' L' ∧ (sessionCancel step net id).2 = o := by
  simp only [Spec.call] at hc
  split at hc
  · exact absurd hc (by simp)
  · rename_i s hl
    obtain ⟨hs, he⟩ := live_some hl
    split at hc
    · exact absurd hc (by simp)
    · rename_i hstd
      have hstd : s.started = true := by simpa using hstd
      split at hc
      · exact absurd hc (by simp)
      · rename_i st1 hg
        simp only [Option.some.injEq, Prod.mk.injEq] at hc
        obtain ⟨rfl, rfl⟩ := hc
        obtain ⟨a, ha, k0, k1, k2, k3, k4, k5, k6, k7⟩ := h.liveSess hs he
        obtain ⟨c1, c2⟩ := clear_sim h (.inl rfl) ha
        obtain ⟨net1, L1, e1, e2, e3, ⟨a', e4, e5⟩, e6, ⟨s', e7, e8, e9, e10⟩⟩ :=
          giveUp_sim (a := { a with callback := false }) h hs he hstd ha c2 (by simp [Net.set, upd]) rfl rfl hg
        unfold sessionCancel
        rw [c1, andThen_ok, e1, andThen_ok]
        refine ⟨L1, ?_, rfl⟩
        have := RelX.backLive (s := { s' with pending := none }) e2 e3 e4 ⟨by simp [e8, e5], by simp [e8]⟩ rfl (by simp [e6, e8])
          (fun _ => by simp only [e9]; exact hstd)
        -- an ended session has nothing outstanding that matters
        refine ⟨this.state, this.total, this.fly, this.len, this.zero, this.fresh, this.nodup, ?_, ?_, ?_, ?_, ?_, ?_⟩
        · intro k hk
          by_cases hki : k = id
          · subst hki; simp [e4, e7]
          · have := this.absent k hk
            simpa [Spec.St.put, hki] using this
        · intro k b t hk hb ht
          by_cases hki : k = id
          · subst hki
            rw [e4] at hb; rw [e7] at ht
            simp only [Option.some.injEq] at hb ht
            subst hb; subst ht
            exact ⟨by simp [e8, e5], by simp [e8]⟩
          · exact this.heap k b t hk hb (by simpa [Spec.St.put, hki] using ht)
        · intro k hk
          by_cases hki : k = id
          · subst hki; simp [e6, e7, e8]
          · have := this.mem k hk
            simpa [Spec.St.put, hki] using this
        · intro k t hk ht hta
          by_cases hki : k = id
          · subst hki
            rw [e7] at ht
            simp only [Option.some.injEq] at ht
            subst ht
            rw [e9]; exact hstd
          · exact this.asyn k t hk (by simpa [Spec.St.put, hki] using ht) hta
        · intro k t p hk ht hte htp
          by_cases hki : k = id
          · subst hki
            rw [e7] at ht
            simp only [Option.some.injEq] at ht
            subst ht
            rw [e8] at hte
            exact absurd hte (by simp)
          · exact this.pend k t p hk (by simpa [Spec.St.put, hki] using ht) hte htp
        · intro i r hi hk
          have hki := e3 r (List.mem_of_getElem? hi)
          have := this.flyp i r hi hk
          simpa [Spec.St.put, hki] using this

/-- Freeing a session. -/
theorem free_sim {id : Nat} {o : Out (Option α)} (h : RelX step none net st L)
    (hc : Spec.call step st (.free id) = some (st', o)) :
    ∃ L', RelX step none (sessionFree step net id).1 st' L' ∧ (sessionFree step net id).2 = o := by
  simp only [Spec.call] at hc
  split at hc
  · exact absurd hc (by simp)
  · rename_i s hs
    obtain ⟨a, ha⟩ : ∃ a, net.heap id = some a := by
      cases ha : net.heap id with
      | none =>
        rw [h.absent id (by simp), hs] at ha
        exact absurd ha (by simp)
      | some a => exact ⟨a, rfl⟩
    obtain ⟨hid0, hle⟩ := h.idPos ha
    obtain ⟨k0, k1⟩ := h.heap id a s (by simp) ha hs
    split at hc
    · rename_i hg
      simp only [Option.some.injEq, Prod.mk.injEq] at hc
      obtain ⟨rfl, rfl⟩ := hc
      have hcb : a.callback = false := by
        rw [k0]
        cases h1 : s.started <;> cases h2 : s.ended <;> simp [h1, h2] at hg ⊢
      unfold sessionFree
      simp only [ha, hcb]
      refine ⟨L, ?_, rfl⟩
      refine RelX.backGone (h.leave id) ?_ hid0 hle ?_
      · intro r hr hid
        obtain ⟨i, hi⟩ := List.getElem?_of_mem hr
        obtain ⟨s', p, g1, g2, g3, _⟩ := h.flyp i r hi (by simp)
        rw [hid, hs] at g1
        simp only [Option.some.injEq] at g1
        subst g1
        have := h.asyn id s (by simp) hs (.inl (h.pend id s p (by simp) hs g2 g3).1)
        simp [g2, this] at hg
      · show id ∉ net.list
        rw [h.mem id (by simp)]
        rintro ⟨s', g1, g2, g3⟩
        rw [hs] at g1
        simp only [Option.some.injEq] at g1
        subst g1
        simp [g2, g3] at hg
    · rename_i hg
      have he : s.ended = false := by
        cases h2 : s.ended <;> simp [h2] at hg ⊢
      have hstd : s.started = true := by
        cases h2 : s.started <;> simp [h2] at hg ⊢
      split at hc
      · exact absurd hc (by simp)
      · rename_i st1 hgu
        simp only [Option.some.injEq, Prod.mk.injEq] at hc
        obtain ⟨rfl, rfl⟩ := hc
        have hcb : a.callback = true := by rw [k0, he, hstd]; rfl
        obtain ⟨net1, L1, e1, e2, e3, ⟨a', e4, e5⟩, e6, ⟨s', e7, e8, e9, e10⟩⟩ :=
          giveUp_sim (a := a) h hs he hstd ha (h.leave id) ha rfl rfl hgu
        unfold sessionFree
        simp only [ha, hcb, if_true, e1, andThen_ok, and_true]
        refine ⟨L1, ?_⟩
        exact RelX.backGone e2 e3 hid0 (e2.idPos e4).2 e6

/-- Closing a session. -/
theorem close_sim {id : Nat} {o : Out (Option α)} (h : RelX step none net st L)
    (hc : Spec.call step st (.close id) = some (st', o)) :
    ∃ L', RelX step none (sessionClose step net id).1 st' L' ∧ (sessionClose step net id).2 = o := by
  simp only [Spec.call] at hc
  split at hc
  · exact absurd hc (by simp)
  · rename_i s hl
    obtain ⟨hs, he⟩ := live_some hl
    split at hc
    · exact absurd hc (by simp)
    · rename_i hg
      simp only [Bool.or_eq_true, Bool.not_eq_true', not_or, Bool.not_eq_true, Bool.not_eq_false,
        Option.isSome_eq_false_iff, Option.isNone_iff_eq_none] at hg
      obtain ⟨g1, g2⟩ := hg
      obtain ⟨a, ha, k0, k1, k2, k3, k4, k5, k6, _⟩ := h.liveSess hs he
      obtain ⟨hid0, hle⟩ := h.idPos ha
      have hstd := h.asyn id s (by simp) hs (.inr g1)
      split at hc
      · rename_i st1 d hq
        simp only [Option.some.injEq, Prod.mk.injEq] at hc
        obtain ⟨rfl, rfl⟩ := hc
        have hq' : Spec.ask step st ⟨a.command, .cls, id, a.isOpen, none⟩ = some (st1, true, .data d) := by
          rw [k1, k3, g1]; exact hq
        obtain ⟨net1, e1, e2, e3, e4, e5, e6, e7⟩ := sync_sim (h.leave id) (h.noFly hs g2) ha (k5 g2) hq'
        obtain ⟨net0, r1, r2⟩ : ∃ net0, requestInternal net id .cls (none : Option α) = (net0, .ok ()) ∧
            responseInternal step net0 id = (net1, .ok d) := by
          cases hri : requestInternal net id .cls (none : Option α) with
          | mk n o =>
            rw [hri] at e1
            cases o with
            | ok v => exact ⟨n, rfl, e1⟩
            | raised x y => simp [andThen, Spec.result] at e1
            | err e => simp [andThen, Spec.result] at e1
            | hang => simp [andThen, Spec.result] at e1
            | ub => simp [andThen, Spec.result] at e1
        obtain ⟨c1, c2⟩ := clear_sim e2 (.inr rfl) e3
        have hmem : id ∈ net1.list := by
          rw [e4, k6]; exact hstd
        obtain ⟨net2, L2, f1, f2, f3, ⟨a', f4, f5⟩, f6, _⟩ :=
          finish_sim (a := { a with queued := false, isOpen := a.isOpen && !true, callback := false })
            (s := { s with isOpen := false }) c2 (by simp) (by simp [Net.set, upd]) k1
            (by simp) (by simp) hmem (st' := st1.waited.put id (some { s with isOpen := false, ended := true })) (by simp [Spec.finish, g2])
        unfold sessionClose
        rw [r1, andThen_ok, r2, andThen_ok, c1, andThen_ok]
        have hfr : freeResource step (net1.set id { a with queued := false, isOpen := a.isOpen && !true, callback := false }) id =
            (net2, .ok ()) := by
          unfold freeResource
          have : freeQueued step (net1.set id { a with queued := false, isOpen := a.isOpen && !true, callback := false }) id =
              (net1.set id { a with queued := false, isOpen := a.isOpen && !true, callback := false }, .ok ()) := by
            unfold freeQueued
            simp [Net.set, upd]
          rw [this, andThen_ok]
          exact f1
        rw [hfr, andThen_ok]
        refine ⟨L2, ?_, rfl⟩
        have := RelX.backLive (s := { s with isOpen := false, ended := true }) f2 f3 f4 ⟨by simp [f5], by simp⟩ g2 (by simp [f6])
          (fun _ => hstd)
        rw [put_self (by simp [Spec.St.put])] at this
        exact this
      · rename_i st1 c x y hq
        simp only [Option.some.injEq, Prod.mk.injEq] at hc
        obtain ⟨rfl, rfl⟩ := hc
        rw [← k1, ← g1, ← k3] at hq
        obtain ⟨net1, e1, e2, e3, e4, e5, e6, e7⟩ := sync_sim (h.leave id) (h.noFly hs g2) ha (k5 g2) hq
        obtain ⟨net0, r1, r2⟩ : ∃ net0, requestInternal net id .cls (none : Option α) = (net0, .ok ()) ∧
            responseInternal step net0 id = (net1, .raised x y) := by
          cases hri : requestInternal net id .cls (none : Option α) with
          | mk n o =>
            rw [hri] at e1
            cases o with
            | ok v => exact ⟨n, rfl, e1⟩
            | raised x y =>
              unfold requestInternal at hri
              split at hri
              · simp at hri
              · split at hri <;> simp at hri
            | err e => simp [andThen, Spec.result] at e1
            | hang => simp [andThen, Spec.result] at e1
            | ub => simp [andThen, Spec.result] at e1
        unfold sessionClose
        rw [r1, andThen_ok, r2]
        refine ⟨[], ?_, rfl⟩
        show RelX step none net1 _ _
        exact RelX.backLive e2 (by simp) e3 (srel_none (by simp [he, k0]) k1 k2 (by simp [k3, g1]) rfl g2 (k5 g2)) g2
          (by rw [e4, k6]; simp [he]) (fun _ => hstd)
      · exact absurd hc (by simp)

/-- Every call. -/
theorem call_sim {c : Call α} {o : Out (Option α)} (h : RelX step none net st L) (hc : Spec.call step st c = some (st', o)) :
    ∃ L', RelX step none (call step net c).1 st' L' ∧ (call step net c).2 = o := by
  cases c with
  | new command async =>
    simp only [Spec.call, Option.some.injEq, Prod.mk.injEq] at hc
    obtain ⟨rfl, rfl⟩ := hc
    exact ⟨L, new_sim command async h, rfl⟩
  | request command param => exact simple_sim h hc
  | noop => exact simple_sim h hc
  | keepAlive due =>
    cases due with
    | true => exact simple_sim h hc
    | false =>
      simp only [Spec.call, Option.some.injEq, Prod.mk.injEq] at hc
      obtain ⟨rfl, rfl⟩ := hc
      exact ⟨L, h, rfl⟩
  | «open» id param => exact open_sim h hc
  | sessRequest id param => exact sessRequest_sim h hc
  | requestAsync id param => exact requestAsync_sim h hc
  | response id => exact response_call_sim h hc
  | close id => exact close_sim h hc
  | cancel id => exact cancel_sim h hc
  | free id => exact free_sim h hc

/-- Every history. -/
theorem run_sim : ∀ {cs : List (Call α)} {net : Net S α} {st st' : Spec.St S α} {L : List (Resp α)} {os : List (Out (Option α))},
    RelX step none net st L → Spec.run step st cs = some (st', os) →
    ∃ L', RelX step none (run step net cs).1 st' L' ∧ (run step net cs).2 = os
  | [], net, st, st', L, os, h, hr => by
    simp only [Spec.run, Option.some.injEq, Prod.mk.injEq] at hr
    obtain ⟨rfl, rfl⟩ := hr
    exact ⟨L, h, rfl⟩
  | c :: cs, net, st, st', L, os, h, hr => by
    simp only [Spec.run] at hr
    split at hr
    · exact absurd hr (by simp)
    · rename_i st1 o hc
      split at hr
      · exact absurd hr (by simp)
      · rename_i st2 os2 hr2
        simp only [Option.some.injEq, Prod.mk.injEq] at hr
        obtain ⟨rfl, rfl⟩ := hr
        obtain ⟨L1, h1, h2⟩ := call_sim h hc
        obtain ⟨L2, h3, h4⟩ := run_sim h1 hr2
        exact ⟨L2, h3, by simp only [run, h2, h4]⟩

end Verif.Protocol
