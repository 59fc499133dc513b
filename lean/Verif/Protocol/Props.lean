import Verif.Protocol.ClientSim

/-!
# C70: every answer goes to the session that asked

Properties of the protocol client (src/protocol/client.c) over one connection, for any server that answers requests in the order it
receives them.
-/

namespace Verif.Protocol

variable {S α : Type}

/-- Every history of calls gives exactly what it would give if every request were answered at once and the answer were kept with the
session that asked: no answer is lost, delivered twice or delivered to another session, an error that the server reports is thrown
by the session whose request caused it, no call waits for ever and none has undefined behaviour. This holds however requests of
different sessions are interleaved and in whatever order the answers are asked for. Missing from the full property is what
`Spec.giveUp` leaves without a meaning: giving up a session that is open when its answer has already been read by another session, or
when the answer is an error that has not been read. There the property is false, as `c70_cancel_stored`, `c70_cancel_broken` and
`c70_free_error` show. -/
theorem c70_answers_partial (step : S → Req α → SOut S α) (sv : S) (cs : List (Call α)) (st : Spec.St S α)
    (os : List (Out (Option α))) (h : Spec.run step (Spec.start sv) cs = some (st, os)) :
    (run step (clientNew sv) cs).2 = os := by
  obtain ⟨_, _, h2⟩ := run_sim (RelX.start sv) h
  exact h2

/-- What the server sees is also the same: after the history and once it has taken the requests that are still on the connection, it
is in the state that the specification says. -/
theorem c70_server_partial (step : S → Req α → SOut S α) (sv : S) (cs : List (Call α)) (st : Spec.St S α)
    (os : List (Out (Option α))) (h : Spec.run step (Spec.start sv) cs = some (st, os)) :
    ∃ sv' rs, (run step (clientNew sv) cs).1.server = some sv' ∧
      answers step sv' (run step (clientNew sv) cs).1.toServer = some (st.server, rs) := by
  obtain ⟨_, h1, _⟩ := run_sim (RelX.start sv) h
  obtain ⟨sv', A, f1, f2, _⟩ := h1.fly
  exact ⟨sv', A, f1, f2⟩

theorem clearAll_ok : ∀ {ks : List Nat} {net : Net S α}, (∀ k ∈ ks, net.heap k ≠ none) →
    ∃ net', clearAll net ks = (net', .ok ()) ∧ net'.toServer = net.toServer ∧ net'.total = net.total
  | [], net, _ => ⟨net, rfl, rfl, rfl⟩
  | k :: ks, net, h => by
    cases hk : net.heap k with
    | none => exact absurd hk (h k (by simp))
    | some a =>
      obtain ⟨net', h1, h2, h3⟩ := clearAll_ok (ks := ks) (net := net.set k { a with callback := false }) (by
        intro j hj
        by_cases hjk : j = k
        · simp [Net.set, upd, hjk]
        · simp only [Net.set, upd, if_neg hjk]
          exact h j (by simp [hj]))
      refine ⟨net', ?_, h2, h3⟩
      simp only [clearAll, callbackClear, hk]
      rw [andThen_ok]
      exact h1

/-- Freeing the client after such a history sends the request to exit, last, and uses no session that was freed. -/
theorem c70_client_free_partial (step : S → Req α → SOut S α) (sv : S) (cs : List (Call α)) (st : Spec.St S α)
    (os : List (Out (Option α))) (h : Spec.run step (Spec.start sv) cs = some (st, os)) :
    ∃ net', clientFree (run step (clientNew sv) cs).1 = (net', .ok none) ∧
      net'.toServer = (run step (clientNew sv) cs).1.toServer ++ [⟨cmdExit, .prc, st.total + 1, false, none⟩] := by
  obtain ⟨_, h1, _⟩ := run_sim (RelX.start sv) h
  obtain ⟨net', e1, e2, e3⟩ := clearAll_ok (h1.alive (by simp))
  unfold clientFree
  rw [e1, andThen_ok]
  simp only [sessionNew, andThen_ok, requestInternal, upd, if_true]
  refine ⟨_, rfl, ?_⟩
  simp only [e2, e3, h1.total]

/-- One more request on the connection. -/
def Net.add (net : Net S α) (q : Req α) : Net S α := { net with toServer := net.toServer ++ [q] }

theorem pump_add {step : S → Req α → SOut S α} {net net' : Net S α} {r : Resp α} {q : Req α}
    (h : pump step net = .ok (r, net')) : pump step (net.add q) = .ok (r, net'.add q) := by
  unfold pump at h ⊢
  simp only [Net.add]
  cases hc : net.toClient with
  | cons x xs =>
    simp only [hc, Out.ok.injEq, Prod.mk.injEq] at h ⊢
    obtain ⟨rfl, rfl⟩ := h
    exact ⟨rfl, rfl⟩
  | nil =>
    simp only [hc] at h ⊢
    cases hsv : net.server with
    | none => simp [hsv] at h
    | some sv =>
      cases hq : net.toServer with
      | nil => simp [hsv, hq] at h
      | cons y ys =>
        simp only [hsv, hq, List.cons_append] at h ⊢
        cases hs : step sv y with
        | reply a b c =>
          simp only [hs, Out.ok.injEq, Prod.mk.injEq] at h ⊢
          obtain ⟨rfl, rfl⟩ := h
          exact ⟨rfl, rfl⟩
        | fatal e =>
          simp only [hs, Out.ok.injEq, Prod.mk.injEq] at h ⊢
          obtain ⟨rfl, rfl⟩ := h
          exact ⟨rfl, rfl⟩
        | exit a => simp [hs] at h
        | ub => simp [hs] at h

theorem storeOther_add {net net' : Net S α} {r : Resp α} {q : Req α} (h : storeOther net r = .ok net') :
    storeOther (net.add q) r = .ok (net'.add q) := by
  unfold storeOther at h ⊢
  have e1 : (net.add q).heap = net.heap := rfl
  have e2 : (net.add q).list = net.list := rfl
  rw [e1, e2]
  cases hf : findIdx net.heap net.list r.sessionId with
  | ok n =>
    rw [hf] at h
    simp only at h ⊢
    cases ho : net.list[n]? with
    | none => simp [ho] at h
    | some other =>
      simp only [ho] at h ⊢
      cases hs : net.heap other with
      | none => simp [hs] at h
      | some s =>
        simp only [hs] at h ⊢
        by_cases hst : s.stored = true
        · simp [hst] at h
        · rw [if_neg hst] at h ⊢
          simp only [Out.ok.injEq] at h
          subst h
          rfl
  | raised a b => simp [hf] at h
  | err e => simp [hf] at h
  | hang => simp [hf] at h
  | ub => simp [hf] at h

theorem readLoop_fatal {step : S → Req α → SOut S α} {id : Nat} {a : Sess α} {q : Req α} {e : SErr} :
    ∀ {L : List (Resp α)} {net : Net S α} {st : Spec.St S α} {fuel : Nat},
      RelX step (some id) net st L → (∀ y ∈ L, y.sessionId ≠ id) → L.length < fuel → net.heap id = some a →
      step st.server q = .fatal e →
      ∃ net', readLoop step fuel (net.add q) id = (net', .ok (false, .err e [])) ∧ net'.heap id = some a
  | [], net, st, 0, _, _, hf, _, _ => by simp at hf
  | [], net, st, fuel + 1, h, _, _, ha, hs => by
    obtain ⟨sv, A, f1, f2, f3⟩ := h.fly
    have hl := answers_length f2
    obtain ⟨hc, rfl⟩ := List.append_eq_nil_iff.mp f3.symm
    have hq : net.toServer = [] := List.length_eq_zero_iff.mp hl.symm
    rw [hq] at f2
    simp only [answers, Option.some.injEq, Prod.mk.injEq, and_true] at f2
    subst f2
    simp only [readLoop, pump, Net.add, hc, f1, hq, List.nil_append, hs]
    rw [if_neg (by simp)]
    exact ⟨_, rfl, ha⟩
  | y :: L, net, st, 0, _, _, hf, _, _ => by simp at hf
  | y :: L, net, st, fuel + 1, h, hne, hf, ha, hs => by
    obtain ⟨net1, hp, hfl, hsb⟩ := h.fly.pump
    have hy := hne y (by simp)
    obtain ⟨hz, net2, hso, hrel, ha2, _, _⟩ := RelX.other h hy ha hfl hsb
    obtain ⟨net3, e1, e2⟩ := readLoop_fatal (fuel := fuel) hrel (fun z hz => hne z (by simp [hz])) (by simp at hf; exact hf) ha2 hs
    refine ⟨net3, ?_, e2⟩
    simp only [readLoop, pump_add hp]
    rw [if_pos ⟨hz, hy⟩, storeOther_add hso]
    exact e1

/-- When the server cannot go on and ends because of a request, the session that made the request throws the error of the server. The
answers that other sessions still wait for are kept. -/
theorem c70_fatal_partial (step : S → Req α → SOut S α) (sv : S) (cs : List (Call α)) (st : Spec.St S α)
    (os : List (Out (Option α))) (h : Spec.run step (Spec.start sv) cs = some (st, os)) (id : Nat) (s : Spec.Sess α)
    (hs : st.sess id = some s) (he : s.ended = false) (hp : s.pending = none) (param : Option α) (e : SErr)
    (hf : step st.server ⟨s.command, .prc, id, s.isOpen, param⟩ = .fatal e) :
    (run step (clientNew sv) (cs ++ [.sessRequest id param])).2 = os ++ [.raised e []] := by
  have hrun : ∀ (cs : List (Call α)) (net : Net S α) (c : Call α), (run step net (cs ++ [c])).2 =
      (run step net cs).2 ++ [(call step (run step net cs).1 c).2] := by
    intro cs
    induction cs with
    | nil => intro net c; rfl
    | cons d ds ih => intro net c; simp only [List.cons_append, run, ih]
  obtain ⟨L, h1, h2⟩ := run_sim (RelX.start sv) h
  rw [hrun, h2]
  generalize (run step (clientNew sv) cs).1 = net at h1
  obtain ⟨a, ha, k0, k1, k2, k3, k4, k5, k6, _⟩ := h1.liveSess hs he
  obtain ⟨hid0, hle⟩ := h1.idPos ha
  -- the session after the request was sent
  have hx : RelX step (some id) (net.set id { a with queued := true }) st L :=
    RelX.frame (h1.leave id) rfl rfl rfl rfl rfl (fun k hk => by simp [Net.set, upd, hk]) h1.nodup (fun _ _ => Iff.rfl)
      rfl rfl rfl rfl (fun _ _ => rfl) hid0 hle
  have hcount := hx.fly.count
  obtain ⟨net', e1, e2⟩ := readLoop_fatal (a := { a with queued := true })
    (q := ⟨s.command, .prc, id, s.isOpen, param⟩)
    (fuel := ((net.set id { a with queued := true }).add ⟨s.command, .prc, id, s.isOpen, param⟩).count)
    hx (h1.noFly hs hp) (by
      simp only [Net.count, Net.add, Net.set, List.length_append, List.length_cons, List.length_nil] at hcount ⊢
      omega) (by simp only [Net.set, upd, if_true]) hf
  have hreq : requestInternal net id .prc param =
      ((net.set id { a with queued := true }).add ⟨s.command, .prc, id, s.isOpen, param⟩, .ok ()) := by
    unfold requestInternal
    simp only [ha]
    rw [if_neg (by rw [h1.state]; simp), k1, k3]
    rfl
  simp only [call, sessionRequest, hreq, andThen_ok, responseInternal]
  have hh : ((net.set id { a with queued := true }).add ⟨s.command, .prc, id, s.isOpen, param⟩).heap id =
      some { a with queued := true } := by simp [Net.add, Net.set, upd]
  rw [hh]
  simp only
  rw [if_neg (by simp only [Net.add, Net.set]; rw [h1.state]; simp), if_neg (by simp [k5 hp]), e1]
  simp [finishResponse, e2]

/-! ## A server to try it with -/

/-- Answers with the number of the request and its parameter; closes when asked to; reports an error for the parameter 13 and ends on
the parameter 99. -/
def demo (n : Nat) (q : Req Nat) : SOut Nat Nat :=
  if q.param = some 99 then .fatal ⟨25, "assert"⟩
  else if q.param = some 13 then .reply (n + 1) false (.err ⟨42, "read"⟩ [])
  else .reply (n + 1) (q.type == .cls || q.type == .cnc) (.data (q.param.map (· + 1000 * (n + 1))))

/-- Two async sessions and a request without a session, with the answers asked for in another order than the requests. -/
def demoCalls : List (Call Nat) :=
  [.new 5 true, .new 6 true, .open 1 (some 1), .open 2 (some 2), .requestAsync 1 (some 3), .requestAsync 2 (some 13),
    .request 7 (some 4), .response 2, .keepAlive true, .response 1, .sessRequest 1 (some 5), .close 1, .cancel 2, .free 1, .free 2]

/-- The history is one that the specification allows. -/
example : ((Spec.run demo (Spec.start 0) demoCalls).map fun x => x.2) =
    some [.ok none, .ok none, .ok (some 1001), .ok (some 2002), .ok none, .ok none, .ok (some 5004), .raised ⟨42, "read"⟩ [],
      .ok none, .ok (some 3003), .ok (some 7005), .ok none, .ok none, .ok none, .ok none] := by decide +kernel

/-- And this is what the client does. -/
theorem c70_example : (run demo (clientNew 0) demoCalls).2 =
    [.ok none, .ok none, .ok (some 1001), .ok (some 2002), .ok none, .ok none, .ok (some 5004), .raised ⟨42, "read"⟩ [],
      .ok none, .ok (some 3003), .ok (some 7005), .ok none, .ok none, .ok none, .ok none] := by decide +kernel

/-- A session given up while its answer has not arrived: allowed, and the answer is read and dropped. -/
example : ((Spec.run demo (Spec.start 0)
    [.new 5 true, .open 1 (some 1), .requestAsync 1 (some 3), .cancel 1, .request 7 (some 4)]).map fun x => x.2) =
    some [.ok none, .ok (some 1001), .ok none, .ok none, .ok (some 4004)] := by decide +kernel

/-- The request that ends the server. -/
example : (run demo (clientNew 0) [.new 5 true, .new 6 true, .requestAsync 2 (some 1), .sessRequest 1 (some 99)]).2 =
    [.ok none, .ok none, .ok none, .raised ⟨25, "assert"⟩ []] := by decide +kernel

/-! ## Where the full property is false -/

/-- A file is read over the connection and the next part was already requested, as the remote storage does (storage/remote/read.c
114-117). Another request is made, which reads and stores that part for the session of the file. Then the file is closed before its
end. The stored answer is freed, and then used as if it were the answer to the cancel request. -/
theorem c70_cancel_stored : (run demo (clientNew 0)
    [.new 5 true, .open 1 (some 1), .requestAsync 1 (some 3), .request 7 (some 4), .cancel 1]).2 =
    [.ok none, .ok (some 1001), .ok none, .ok (some 3004), .ub] := by decide +kernel

/-- The same with an answer that has no data, as when a file is written over the connection: the answer to the cancel request is
left on the connection, the next request fails because it is for a session that is no longer known, and so do all requests after. -/
theorem c70_cancel_broken : (run demo (clientNew 0)
    [.new 5 true, .open 1 (some 1), .requestAsync 1 none, .request 7 (some 4), .cancel 1, .request 7 (some 5),
      .request 7 (some 6)]).2 =
    [.ok none, .ok (some 1001), .ok none, .ok (some 3004), .ok none, .err .protocol, .err .protocol] := by decide +kernel

/-- A session that waits for an answer is freed and the answer is an error. The error is thrown, but the session, whose memory is
freed, is still in the list of the client: the next answer that has to be stored looks at it. Freeing the client does too. -/
theorem c70_free_error : (run demo (clientNew 0)
    [.new 5 true, .new 6 true, .requestAsync 1 (some 13), .free 1, .requestAsync 2 (some 4), .request 7 (some 5)]).2 =
      [.ok none, .ok none, .ok none, .raised ⟨42, "read"⟩ [], .ok none, .ub] ∧
    (clientFree (run demo (clientNew 0) [.new 5 true, .requestAsync 1 (some 13), .free 1]).1).2 = .ub := by decide +kernel

/-- Closes every session at once, as a server does when there is nothing to keep open. -/
def demoClose (n : Nat) (q : Req Nat) : SOut Nat Nat := .reply (n + 1) true (.data (q.param.map (· + 1000 * (n + 1))))

/-- A session that is not async and that the server closed is opened again: it is in the list of the client twice, and freeing it
removes it once. -/
theorem c70_open_twice : (clientFree (run demoClose (clientNew 0)
    [.new 5 false, .open 1 (some 1), .open 1 (some 2), .free 1]).1).2 = .ub := by decide +kernel

end Verif.Protocol
